import Verif.Proof.Options

/-! # The second reader of the option file: lemmas -/

namespace Mica

theorem nextWord_nil {s : List Char} (h : (nextWord s).1 = []) : ∀ c ∈ s, isSpaceC c = true := by
  have hs : skipSpace s = [] := by
    cases hk : skipSpace s with
    | nil => rfl
    | cons c t =>
      have := List.head?_dropWhile_not isSpaceC s
      rw [show s.dropWhile isSpaceC = c :: t from hk] at this
      simp only [nextWord, hk] at h
      rw [List.takeWhile_cons] at h
      simp only [List.head?_cons] at this
      simp_all
  rw [skipSpace, List.dropWhile_eq_nil_iff] at hs
  exact hs

theorem oneWord_iff {l : List Char} : OneWord l ↔ (nextWord l).1 ≠ [] ∧ twoWords l = none := by
  constructor
  · rintro ⟨a, w, b, rfl, ha, hw, hws, hb⟩
    have hn : nextWord (a ++ (w ++ b)) = (w, b) := by
      apply nextWord_eq ha hw hws
      cases b with
      | nil => left; rfl
      | cons c t => right; exact ⟨c, t, rfl, hb c (by simp)⟩
    refine ⟨by rw [hn]; exact hw, ?_⟩
    have hb2 : (nextWord b).1 = [] := by
      have : skipSpace b = [] := by
        rw [skipSpace, List.dropWhile_eq_nil_iff]; exact hb
      simp [nextWord, this]
    unfold twoWords
    rw [hn]
    simp [hw, hb2]
  · rintro ⟨h1, h2⟩
    obtain ⟨a, e, ha, hw, -⟩ := nextWord_spec l
    refine ⟨a, (nextWord l).1, (nextWord l).2, e, ha, h1, hw, ?_⟩
    apply nextWord_nil
    by_contra h3
    unfold twoWords at h2
    rw [if_neg h1, if_neg h3] at h2
    cases h2

/-- One pass of the loop: nothing, or how it ends. -/
def numStep (b : List Char) : Option (Res ℤ) :=
  if b.headD ' ' = '#' then none
  else if (nextWord b).1 = [] then none
  else match twoWords b with
    | none => some .exit
    | some (w, v) => if w = "NumberParticles".toList then some (.ok (atoiC v)) else none

theorem numLoop_cons (b : List Char) (bs : List (List Char)) :
    numLoop (b :: bs) = (numStep b).getD (numLoop bs) := by
  rw [numLoop, numStep]
  by_cases h1 : b.headD ' ' = '#'
  · rw [if_pos h1, if_pos h1]; rfl
  rw [if_neg h1, if_neg h1]
  by_cases h2 : (nextWord b).1 = []
  · rw [if_pos h2, if_pos h2]; rfl
  rw [if_neg h2, if_neg h2]
  cases twoWords b with
  | none => rfl
  | some p =>
    obtain ⟨w, v⟩ := p
    generalize "NumberParticles".toList = t
    simp only
    split <;> rfl

theorem numLoop_eq (bs : List (List Char)) : numLoop bs = ((bs.filterMap numStep).head?).getD (.ok 1) := by
  induction bs with
  | nil => rfl
  | cons b bs ih =>
    rw [numLoop_cons, List.filterMap_cons, ih]
    cases numStep b <;> rfl

theorem twoWords_none_newline {l : List Char} : twoWords (l ++ ['\n']) = none ↔ twoWords l = none := by
  rw [twoWords_newline]

theorem nextWord_nil_iff {s : List Char} : (nextWord s).1 = [] ↔ ∀ c ∈ s, isSpaceC c = true := by
  refine ⟨nextWord_nil, fun h => ?_⟩
  have : skipSpace s = [] := by rw [skipSpace, List.dropWhile_eq_nil_iff]; exact h
  simp [nextWord, this]

theorem numStep_newline (l : List Char) : numStep (l ++ ['\n']) = numStep l := by
  unfold numStep
  rw [twoWords_newline]
  have h1 : (l ++ ['\n']).headD ' ' = '#' ↔ l.headD ' ' = '#' := by
    cases l with
    | nil => decide
    | cons c l => simp
  have h2 : (nextWord (l ++ ['\n'])).1 = [] ↔ (nextWord l).1 = [] := by
    rw [nextWord_nil_iff, nextWord_nil_iff]
    simp only [List.mem_append, List.mem_singleton]
    constructor
    · intro h c hc; exact h c (Or.inl hc)
    · rintro h c (hc | rfl)
      · exact h c hc
      · rfl
  simp only [h1, h2]

/-- Passing the last piece twice makes no difference. -/
theorem numLoop_again (bs : List (List Char)) (l : List Char) (h : l ∈ bs) :
    numLoop (bs ++ [l]) = numLoop bs := by
  rw [numLoop_eq, numLoop_eq, List.filterMap_append]
  cases hb : bs.filterMap numStep with
  | cons x xs => simp
  | nil =>
    have hl : numStep l = none := by
      by_contra hne
      obtain ⟨y, hy⟩ := Option.ne_none_iff_exists'.1 hne
      have : y ∈ bs.filterMap numStep := List.mem_filterMap.2 ⟨l, h, hy⟩
      rw [hb] at this; simp at this
    simp [hl]

theorem getNum_text {lines : List (List Char)} {last : List Char}
    (h : ∀ l ∈ lines, '\n' ∉ l ∧ l.length ≤ 254) (hl : '\n' ∉ last ∧ last.length ≤ 255)
    (hne : textOf lines last ≠ []) :
    getNumParticles (textOf lines last) = numLoop (allLines lines last) := by
  rw [getNumParticles, if_neg hne]
  have h1 : numLoop (fgetsPasses 254 (textOf lines last)) = numLoop (fgetsAll 254 (textOf lines last)) := by
    unfold fgetsPasses
    cases hg : (fgetsAll 254 (textOf lines last)).getLast? with
    | none => simp
    | some l =>
      simp only
      split
      · exact numLoop_again _ _ (List.mem_of_getLast? hg)
      · simp
  rw [h1]
  unfold textOf allLines
  rw [fgetsAll_lines lines last h hl, numLoop_eq, numLoop_eq, List.filterMap_append, List.filterMap_append,
    List.filterMap_map]
  have : numStep ∘ (fun l : List Char => l ++ ['\n']) = numStep := by
    funext l; exact numStep_newline l
  rw [this]

/-- Lines that end the loop. -/
theorem numStep_eq_exit {l : List Char} : numStep l = some .exit ↔ OneWord l ∧ l.head? ≠ some '#' := by
  rw [oneWord_iff]
  unfold numStep
  have hd : l.headD ' ' = '#' ↔ l.head? = some '#' := by
    cases l with
    | nil => decide
    | cons c l => simp
  by_cases h1 : l.head? = some '#'
  · rw [if_pos (hd.2 h1)]; simp [h1]
  rw [if_neg (fun h => h1 (hd.1 h))]
  by_cases h2 : (nextWord l).1 = []
  · simp [h2]
  rw [if_neg h2]
  cases h3 : twoWords l with
  | none => simp [h1, h2]
  | some p =>
    obtain ⟨w, v⟩ := p
    simp only
    split <;> simp

theorem entry_head {l t v : List Char} (h : IsEntry l t v) (hh : l.head? = some '#') : t.head? = some '#' := by
  obtain ⟨a, b, rest, rfl, ha, ht, hts, -⟩ := h
  cases a with
  | nil =>
    cases t with
    | nil => exact absurd rfl ht
    | cons c t => simpa using hh
  | cons c a =>
    simp only [List.cons_append, List.head?_cons, Option.some.injEq] at hh
    subst hh
    exact absurd (ha '#' (by simp)) (by decide)

theorem numStep_eq_ok {l : List Char} {z : ℤ} :
    numStep l = some (.ok z) ↔ ∃ v, IsEntry l "NumberParticles".toList v ∧ z = atoiC v := by
  unfold numStep
  have hd : l.headD ' ' = '#' ↔ l.head? = some '#' := by
    cases l with
    | nil => decide
    | cons c l => simp
  by_cases h1 : l.head? = some '#'
  · rw [if_pos (hd.2 h1)]
    constructor
    · intro h; cases h
    · rintro ⟨v, hv, -⟩
      exact absurd (entry_head hv h1) (by decide)
  rw [if_neg (fun h => h1 (hd.1 h))]
  simp only [← twoWords_eq_some]
  by_cases h2 : (nextWord l).1 = []
  · have : twoWords l = none := by unfold twoWords; rw [if_pos h2]
    simp [h2, this]
  rw [if_neg h2]
  cases h3 : twoWords l with
  | none => simp
  | some p =>
    obtain ⟨w, v⟩ := p
    simp only [Option.some.injEq, Prod.mk.injEq]
    by_cases hw : w = "NumberParticles".toList
    · rw [if_pos hw]
      simp only [Option.some.injEq, Res.ok.injEq]
      constructor
      · rintro rfl; exact ⟨v, ⟨hw, rfl⟩, rfl⟩
      · rintro ⟨u, ⟨-, rfl⟩, rfl⟩; rfl
    · rw [if_neg hw]
      constructor
      · intro h; cases h
      · rintro ⟨u, ⟨h, -⟩, -⟩; exact absurd h hw

theorem numStep_cases (l : List Char) :
    numStep l = none ∨ numStep l = some .exit ∨ ∃ z, numStep l = some (.ok z) := by
  unfold numStep
  split
  · exact Or.inl rfl
  · split
    · exact Or.inl rfl
    · split
      · exact Or.inr (Or.inl rfl)
      · split
        · exact Or.inr (Or.inr ⟨_, rfl⟩)
        · exact Or.inl rfl

theorem numLoop_exit (ls : List (List Char)) :
    numLoop ls = .exit ↔ ∃ (i : ℕ) (l : List Char), ls[i]? = some l ∧ OneWord l ∧ l.head? ≠ some '#' ∧
      ∀ (j : ℕ) (l' v : List Char), j < i → ls[j]? = some l' → ¬ IsEntry l' "NumberParticles".toList v := by
  induction ls with
  | nil => simp [numLoop]
  | cons b ls ih =>
    rw [numLoop_eq, List.filterMap_cons]
    rcases numStep_cases b with hs | hs | ⟨z, hs⟩
    · rw [hs]
      simp only
      rw [← numLoop_eq, ih]
      constructor
      · rintro ⟨i, l, h1, h2, h3, h4⟩
        refine ⟨i + 1, l, by simpa using h1, h2, h3, ?_⟩
        intro j l' v hj hl'
        cases j with
        | zero =>
          simp only [List.getElem?_cons_zero, Option.some.injEq] at hl'
          subst hl'
          intro he
          have := numStep_eq_ok.2 ⟨v, he, rfl⟩
          rw [hs] at this; cases this
        | succ j => exact h4 j l' v (by omega) (by simpa using hl')
      · rintro ⟨i, l, h1, h2, h3, h4⟩
        cases i with
        | zero =>
          simp only [List.getElem?_cons_zero, Option.some.injEq] at h1
          subst h1
          have := numStep_eq_exit.2 ⟨h2, h3⟩
          rw [hs] at this; cases this
        | succ i =>
          exact ⟨i, l, by simpa using h1, h2, h3, fun j l' v hj hl' => h4 (j + 1) l' v (by omega) (by simpa using hl')⟩
    · rw [hs]
      simp only [List.head?_cons, Option.getD_some, true_iff]
      obtain ⟨h1, h2⟩ := numStep_eq_exit.1 hs
      exact ⟨0, b, by simp, h1, h2, by omega⟩
    · rw [hs]
      simp only [List.head?_cons, Option.getD_some, reduceCtorEq, false_iff]
      rintro ⟨i, l, h1, h2, h3, h4⟩
      obtain ⟨v, hv, -⟩ := numStep_eq_ok.1 hs
      cases i with
      | zero =>
        simp only [List.getElem?_cons_zero, Option.some.injEq] at h1
        subst h1
        have := numStep_eq_exit.2 ⟨h2, h3⟩
        rw [hs] at this; cases this
      | succ i => exact h4 0 b v (by omega) (by simp) hv

theorem numLoop_found {ls : List (List Char)} {z : ℤ} (hex : numLoop ls ≠ .exit)
    (hin : ∃ (i : ℕ) (l v : List Char), ls[i]? = some l ∧ IsEntry l "NumberParticles".toList v)
    (hz : ∀ (i : ℕ) (l v : List Char), ls[i]? = some l → IsEntry l "NumberParticles".toList v → atoiC v = z) :
    numLoop ls = .ok z := by
  induction ls with
  | nil => obtain ⟨i, l, v, h, -⟩ := hin; simp at h
  | cons b ls ih =>
    rw [numLoop_eq, List.filterMap_cons] at hex ⊢
    rcases numStep_cases b with hs | hs | ⟨y, hs⟩
    · rw [hs] at hex ⊢
      simp only at hex ⊢
      rw [← numLoop_eq] at hex ⊢
      refine ih hex ?_ (fun i l v h => hz (i + 1) l v (by simpa using h))
      obtain ⟨i, l, v, h1, h2⟩ := hin
      cases i with
      | zero =>
        simp only [List.getElem?_cons_zero, Option.some.injEq] at h1
        subst h1
        have := numStep_eq_ok.2 ⟨v, h2, rfl⟩
        rw [hs] at this; cases this
      | succ i => exact ⟨i, l, v, by simpa using h1, h2⟩
    · rw [hs] at hex; simp at hex
    · rw [hs]
      obtain ⟨v, hv, rfl⟩ := numStep_eq_ok.1 hs
      simp only [List.head?_cons, Option.getD_some]
      rw [hz 0 b v (by simp) hv]

theorem numLoop_absent {ls : List (List Char)} (hex : numLoop ls ≠ .exit)
    (hno : ∀ (i : ℕ) (l v : List Char), ls[i]? = some l → ¬ IsEntry l "NumberParticles".toList v) :
    numLoop ls = .ok 1 := by
  induction ls with
  | nil => rfl
  | cons b ls ih =>
    rw [numLoop_eq, List.filterMap_cons] at hex ⊢
    rcases numStep_cases b with hs | hs | ⟨y, hs⟩
    · rw [hs] at hex ⊢
      simp only at hex ⊢
      rw [← numLoop_eq] at hex ⊢
      exact ih hex (fun i l v h => hno (i + 1) l v (by simpa using h))
    · rw [hs] at hex; simp at hex
    · obtain ⟨v, hv, -⟩ := numStep_eq_ok.1 hs
      exact absurd hv (hno 0 b v (by simp))

theorem atoi_digits (n : ℕ) : atoiC (Nat.toDigits 10 n) = n := by
  have := scanInt_digits (a := []) (d := Nat.toDigits 10 n) (r := []) (by simp) Nat.toDigits_ne_nil
  simp only [List.nil_append, List.append_nil] at this
  unfold atoiC
  rw [this, digitsVal_toDigits]
  · rfl
  · intro c hc; exact Nat.isDigit_of_mem_toDigits (by norm_num) (by norm_num) hc
  · simp [NoDigit]

/-- `atoi` on a negative number. -/
theorem atoi_minus (n : ℕ) : atoiC ('-' :: Nat.toDigits 10 n) = -(n : ℤ) := by
  have h : skipSpace ('-' :: Nat.toDigits 10 n) = '-' :: Nat.toDigits 10 n := rfl
  have ht : (Nat.toDigits 10 n).takeWhile Char.isDigit = Nat.toDigits 10 n := by
    rw [List.takeWhile_eq_self_iff]
    intro c hc; exact Nat.isDigit_of_mem_toDigits (by norm_num) (by norm_num) hc
  have hs : scanNat (Nat.toDigits 10 n) = some n := by
    unfold scanNat
    rw [ht]
    obtain ⟨c, s, hcs⟩ := List.exists_cons_of_ne_nil (Nat.toDigits_ne_nil (b := 10) (n := n))
    have := digitsVal_toDigits n
    rw [hcs] at this ⊢
    simp only [this]
  unfold atoiC scanInt
  rw [h]
  simp only [hs]
  rfl

end Mica
