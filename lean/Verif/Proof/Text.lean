import Verif.Spec.Text
import Mathlib.Data.List.TakeWhile

/-! # Words and lines -/

namespace Mica

theorem skipSpace_append {a s : List Char} (ha : ∀ c ∈ a, isSpaceC c = true) :
    skipSpace (a ++ s) = skipSpace s := by
  induction a with
  | nil => rfl
  | cons x a ih =>
    have hx := ha x (by simp)
    have := ih fun c hc => ha c (by simp [hc])
    simp only [skipSpace] at this ⊢
    simp [hx, this]

theorem nextWord_eq {a w r : List Char} (ha : ∀ c ∈ a, isSpaceC c = true) (hw : w ≠ [])
    (hws : ∀ c ∈ w, isSpaceC c = false) (hr : r = [] ∨ ∃ c t, r = c :: t ∧ isSpaceC c = true) :
    nextWord (a ++ (w ++ r)) = (w, r) := by
  have h1 : skipSpace (a ++ (w ++ r)) = w ++ r := by
    rw [skipSpace_append ha]
    cases w with
    | nil => exact absurd rfl hw
    | cons x w => simp [skipSpace, hws x (by simp)]
  have h2 : ∀ w : List Char, (∀ c ∈ w, isSpaceC c = false) →
      (w ++ r).takeWhile (fun c => !isSpaceC c) = w ∧ (w ++ r).dropWhile (fun c => !isSpaceC c) = r := by
    intro w
    induction w with
    | nil =>
      intro _
      rcases hr with rfl | ⟨c, t, rfl, hc⟩
      · simp
      · simp [hc]
    | cons x w ih =>
      intro h
      obtain ⟨i1, i2⟩ := ih fun c hc => h c (by simp [hc])
      have hx := h x (by simp)
      simp only [List.cons_append, List.takeWhile_cons, List.dropWhile_cons, hx, Bool.not_false, if_true,
        i1, i2, and_self]
  unfold nextWord
  rw [h1, (h2 w hws).1, (h2 w hws).2]

theorem nextWord_spec (s : List Char) :
    ∃ a, s = a ++ ((nextWord s).1 ++ (nextWord s).2) ∧ (∀ c ∈ a, isSpaceC c = true) ∧
      (∀ c ∈ (nextWord s).1, isSpaceC c = false) ∧
      ((nextWord s).2 = [] ∨ ∃ c t, (nextWord s).2 = c :: t ∧ isSpaceC c = true) := by
  refine ⟨s.takeWhile isSpaceC, ?_, ?_, ?_, ?_⟩
  · simp only [nextWord, List.takeWhile_append_dropWhile, skipSpace]
  · intro c hc
    exact List.mem_takeWhile_imp hc
  · intro c hc
    have := List.mem_takeWhile_imp hc
    simpa using this
  · simp only [nextWord]
    cases h : (skipSpace s).dropWhile (fun c => !isSpaceC c) with
    | nil => left; rfl
    | cons c t =>
      right
      refine ⟨c, t, rfl, ?_⟩
      have := List.head?_dropWhile_not (fun c => !isSpaceC c) (skipSpace s)
      rw [h] at this
      simpa using this

theorem twoWords_eq_some {line t v : List Char} : twoWords line = some (t, v) ↔ IsEntry line t v := by
  constructor
  · intro h
    unfold twoWords at h
    split at h
    · cases h
    · rename_i h1
      split at h
      · cases h
      · rename_i h2
        simp only [Option.some.injEq, Prod.mk.injEq] at h
        obtain ⟨rfl, rfl⟩ := h
        obtain ⟨a, e1, ha, hw, hr⟩ := nextWord_spec line
        obtain ⟨b, e2, hb, hv, hr2⟩ := nextWord_spec (nextWord line).2
        refine ⟨a, b, _, ?_, ha, h1, hw, ?_, hb, h2, hv, hr2⟩
        · rw [← e2]; exact e1
        · rintro rfl
          rcases hr with hr | ⟨c, r, hr, hc⟩
          · rw [hr] at h2; exact h2 rfl
          · rw [List.nil_append] at e2
            rcases hw2 : (nextWord (nextWord line).2).1 with _ | ⟨x, w⟩
            · exact h2 hw2
            · rw [hw2, hr] at e2
              simp only [List.cons_append, List.cons.injEq] at e2
              have := hv c (by rw [e2.1, hw2]; simp)
              rw [hc] at this; cases this
  · rintro ⟨a, b, rest, rfl, ha, ht, hts, hb, hbs, hv, hvs, hr⟩
    have h1 : nextWord (a ++ (t ++ (b ++ (v ++ rest)))) = (t, b ++ (v ++ rest)) := by
      refine nextWord_eq ha ht hts (Or.inr ?_)
      cases b with
      | nil => exact absurd rfl hb
      | cons x b => exact ⟨x, _, rfl, hbs x (by simp)⟩
    have h2 : nextWord (b ++ (v ++ rest)) = (v, rest) := nextWord_eq hbs hv hvs hr
    unfold twoWords
    rw [h1]
    simp only
    rw [h2]
    simp [ht, hv]

theorem isEntry_newline {l t v : List Char} : IsEntry (l ++ ['\n']) t v ↔ IsEntry l t v := by
  constructor
  · rintro ⟨a, b, rest, h, ha, ht, hts, hb, hbs, hv, hvs, hr⟩
    rcases List.eq_nil_or_concat rest with rfl | ⟨r, x, rfl⟩
    · exfalso
      rcases List.eq_nil_or_concat v with rfl | ⟨v', y, rfl⟩
      · exact hv rfl
      · have h' : l ++ ['\n'] = (a ++ (t ++ (b ++ v'))) ++ [y] := by simpa using h
        have := (List.append_inj' h' rfl).2
        have hy := hvs y (by simp)
        simp only [List.cons.injEq, and_true] at this
        rw [← this] at hy
        exact absurd hy (by decide)
    · have h' : l ++ ['\n'] = (a ++ (t ++ (b ++ (v ++ r)))) ++ [x] := by simpa using h
      obtain ⟨e1, e2⟩ := List.append_inj' h' rfl
      refine ⟨a, b, r, e1, ha, ht, hts, hb, hbs, hv, hvs, ?_⟩
      cases r with
      | nil => left; rfl
      | cons c r =>
        right
        rcases hr with hr | ⟨c', r', hr, hc⟩
        · exact absurd hr (by simp)
        · simp only [List.concat_eq_append, List.cons_append, List.cons.injEq] at hr
          exact ⟨c, r, rfl, by rw [hr.1]; exact hc⟩
  · rintro ⟨a, b, rest, rfl, ha, ht, hts, hb, hbs, hv, hvs, hr⟩
    refine ⟨a, b, rest ++ ['\n'], by simp, ha, ht, hts, hb, hbs, hv, hvs, Or.inr ?_⟩
    rcases hr with rfl | ⟨c, r, rfl, hc⟩
    · exact ⟨'\n', [], rfl, by decide⟩
    · exact ⟨c, r ++ ['\n'], rfl, hc⟩

/-! ## Lines -/

theorem fgetsC_line {l rest : List Char} {n : ℕ} (h : '\n' ∉ l) (hl : l.length < n) :
    fgetsC n (l ++ ('\n' :: rest)) = (l ++ ['\n'], rest) := by
  induction l generalizing n with
  | nil =>
    obtain ⟨m, rfl⟩ : ∃ m, n = m + 1 := ⟨n - 1, by simp at hl; omega⟩
    simp [fgetsC]
  | cons c l ih =>
    obtain ⟨m, rfl⟩ : ∃ m, n = m + 1 := ⟨n - 1, by simp at hl; omega⟩
    have hc : c ≠ '\n' := by rintro rfl; exact h (by simp)
    have := ih (n := m) (fun hm => h (by simp [hm])) (by simp at hl; omega)
    simp only [List.cons_append, fgetsC, if_neg hc, this]

theorem fgetsC_last {l : List Char} {n : ℕ} (h : '\n' ∉ l) (hl : l.length ≤ n) : fgetsC n l = (l, []) := by
  induction l generalizing n with
  | nil => cases n <;> rfl
  | cons c l ih =>
    obtain ⟨m, rfl⟩ : ∃ m, n = m + 1 := ⟨n - 1, by simp at hl; omega⟩
    have hc : c ≠ '\n' := by rintro rfl; exact h (by simp)
    have := ih (n := m) (fun hm => h (by simp [hm])) (by simp at hl; omega)
    simp only [fgetsC, if_neg hc, this]

theorem fgetsAll_cons {n : ℕ} {s : List Char} (hs : s ≠ []) :
    fgetsAll n s = (fgetsC (n + 1) s).1 :: fgetsAll n (fgetsC (n + 1) s).2 := by
  cases s with
  | nil => exact absurd rfl hs
  | cons c s => rw [fgetsAll]

/-- A text made of lines that fit the buffer is delivered line by line. -/
theorem fgetsAll_lines {n : ℕ} (lines : List (List Char)) (last : List Char)
    (h : ∀ l ∈ lines, '\n' ∉ l ∧ l.length ≤ n) (hl : '\n' ∉ last ∧ last.length ≤ n + 1) :
    fgetsAll n ((lines.map fun l => l ++ ['\n']).flatten ++ last) =
      (lines.map fun l => l ++ ['\n']) ++ (if last = [] then [] else [last]) := by
  induction lines with
  | nil =>
    simp only [List.map_nil, List.flatten_nil, List.nil_append]
    split
    · rename_i h0; subst h0; rw [fgetsAll]
    · rename_i h0
      rw [fgetsAll_cons h0, fgetsC_last hl.1 hl.2, fgetsAll]
  | cons l lines ih =>
    obtain ⟨h1, h2⟩ := h l (by simp)
    simp only [List.map_cons, List.flatten_cons, List.append_assoc, List.cons_append, List.nil_append]
    rw [fgetsAll_cons (by simp), fgetsC_line h1 (by omega)]
    simp only
    rw [ih fun l hl => h l (by simp [hl])]

end Mica
