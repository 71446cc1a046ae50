import Verif.Proof.Text
import Verif.Model.Config
import Mathlib.Data.List.Forall2
import Mathlib.Data.List.Nodup
import Mathlib.Tactic.NormNum

/-! # Reading tags -/

namespace Mica

/-- The entries of a list of pieces, in order. -/
def entriesOf (comment : Char → Bool) (ls : List (List Char)) : List (List Char × List Char) :=
  ls.filterMap fun l => match twoWords l with
    | none => none
    | some (w, v) => if comment (w.headD ' ') then none else some (w, v)

/-- The loop on entries. -/
def entLoop (tags : List TagEntry) : Assigned → List (List Char × List Char) → Res Assigned
  | st, [] => .ok st
  | st, e :: es => match findTag tags st e.1 with
    | some j => entLoop tags (st ++ [(j, e.2)]) es
    | none => .exit

theorem tagLoop_eq (comment : Char → Bool) (tags : List TagEntry) (st : Assigned) (ls : List (List Char)) :
    tagLoop comment tags st ls = entLoop tags st (entriesOf comment ls) := by
  induction ls generalizing st with
  | nil => rfl
  | cons l ls ih =>
    rw [tagLoop, tagLine, entriesOf, List.filterMap_cons]
    cases h : twoWords l with
    | none => simp only [Res.ok_bind, ih]; rfl
    | some p =>
      obtain ⟨w, v⟩ := p
      simp only
      by_cases hc : comment (w.headD ' ') = true
      · simp only [hc, if_true, Res.ok_bind, ih]; rfl
      · simp only [hc, if_false, Bool.false_eq_true, entLoop]
        cases findTag tags st w with
        | none => rfl
        | some j => simp only [Res.ok_bind, ih]; rfl

/-- Index `j` carries tag `w`. -/
abbrev tagIs (tags : List TagEntry) (j : ℕ) (w : List Char) : Prop := (tags.map TagEntry.tag)[j]? = some w

theorem tagIs_inj {tags : List TagEntry} (hnd : (tags.map TagEntry.tag).Nodup) {i j : ℕ} {w : List Char}
    (hi : tagIs tags i w) (hj : tagIs tags j w) : i = j := by
  have h1 := (List.getElem?_eq_some_iff.1 hi)
  have h2 := (List.getElem?_eq_some_iff.1 hj)
  obtain ⟨a, ha⟩ := h1
  obtain ⟨b, hb⟩ := h2
  exact (List.Nodup.getElem_inj_iff hnd).1 (ha.trans hb.symm)

theorem findTag_some {tags : List TagEntry} {st : Assigned} {w : List Char} {j : ℕ}
    (h : findTag tags st w = some j) : tagIs tags j w ∧ j ∉ st.map Prod.fst := by
  have := List.find?_some h
  simp only [Bool.and_eq_true, beq_iff_eq, Bool.not_eq_true', List.any_eq_false] at this
  refine ⟨this.1, ?_⟩
  intro hm
  obtain ⟨p, hp, rfl⟩ := List.mem_map.1 hm
  exact this.2 p hp rfl

theorem findTag_of {tags : List TagEntry} (hnd : (tags.map TagEntry.tag).Nodup) {st : Assigned}
    {w : List Char} {j : ℕ} (h : tagIs tags j w) (hj : j ∉ st.map Prod.fst) :
    findTag tags st w = some j := by
  cases hf : findTag tags st w with
  | none =>
    have hlt : j < tags.length := by
      have := (List.getElem?_eq_some_iff.1 h).1
      simpa using this
    have := List.find?_eq_none.1 hf j (List.mem_range.2 hlt)
    simp only [Bool.and_eq_true, beq_iff_eq, Bool.not_eq_true', List.any_eq_false, not_and] at this
    exact absurd (fun p hp he => hj (List.mem_map.2 ⟨p, hp, he⟩)) (this h)
  | some i => rw [tagIs_inj hnd (findTag_some hf).1 h]

/-- Entries and the values stored for them. -/
abbrev Stored (tags : List TagEntry) : List (List Char × List Char) → Assigned → Prop :=
  List.Forall₂ fun e p => tagIs tags p.1 e.1 ∧ p.2 = e.2

theorem entLoop_ok {tags : List TagEntry} {st st' : Assigned} {es : List (List Char × List Char)}
    (h : entLoop tags st es = .ok st') (hst : (st.map Prod.fst).Nodup) :
    ∃ new, st' = st ++ new ∧ Stored tags es new ∧ (st'.map Prod.fst).Nodup := by
  induction es generalizing st with
  | nil =>
    simp only [entLoop, Res.ok.injEq] at h
    subst h
    exact ⟨[], by simp, .nil, hst⟩
  | cons e es ih =>
    simp only [entLoop] at h
    cases hf : findTag tags st e.1 with
    | none => rw [hf] at h; cases h
    | some j =>
      rw [hf] at h
      obtain ⟨h1, h2⟩ := findTag_some hf
      have hnd : ((st ++ [(j, e.2)]).map Prod.fst).Nodup := by
        rw [List.map_append, List.nodup_append]
        refine ⟨hst, by simp, ?_⟩
        intro a ha b hb
        simp only [List.map_cons, List.map_nil, List.mem_singleton] at hb
        subst hb
        rintro rfl
        exact h2 ha
      obtain ⟨new, e1, e2, e3⟩ := ih h hnd
      exact ⟨(j, e.2) :: new, by rw [e1]; simp, .cons ⟨h1, rfl⟩ e2, e3⟩

theorem entLoop_of {tags : List TagEntry} (hnd : (tags.map TagEntry.tag).Nodup) {st : Assigned}
    {es : List (List Char × List Char)} (hk : ∀ e ∈ es, e.1 ∈ tags.map TagEntry.tag)
    (hd : (es.map Prod.fst).Nodup) (hst : ∀ e ∈ es, ∀ j, tagIs tags j e.1 → j ∉ st.map Prod.fst) :
    ∃ st', entLoop tags st es = .ok st' := by
  induction es generalizing st with
  | nil => exact ⟨st, rfl⟩
  | cons e es ih =>
    obtain ⟨j, hj⟩ := List.mem_iff_getElem?.1 (hk e (by simp))
    simp only [entLoop]
    rw [findTag_of hnd hj (hst e (by simp) j hj)]
    simp only
    rw [List.map_cons, List.nodup_cons] at hd
    refine ih (fun e he => hk e (by simp [he])) hd.2 ?_
    intro e' he' j' hj' hm
    rw [List.map_append, List.mem_append] at hm
    rcases hm with hm | hm
    · exact hst e' (by simp [he']) j' hj' hm
    · simp only [List.map_cons, List.map_nil, List.mem_singleton] at hm
      subst hm
      have : e'.1 = e.1 := by
        have := hj'.symm.trans hj
        simpa using this
      exact hd.1 (List.mem_map.2 ⟨e', he', this⟩)

theorem entLoop_ok_or_exit (tags : List TagEntry) (st : Assigned) (es : List (List Char × List Char)) :
    (∃ st', entLoop tags st es = .ok st') ∨ entLoop tags st es = .exit := by
  induction es generalizing st with
  | nil => exact Or.inl ⟨st, rfl⟩
  | cons e es ih =>
    simp only [entLoop]
    cases findTag tags st e.1 with
    | none => exact Or.inr rfl
    | some j => exact ih _

theorem stored_known {tags : List TagEntry} {es : List (List Char × List Char)} {new : Assigned}
    (h : Stored tags es new) : ∀ e ∈ es, e.1 ∈ tags.map TagEntry.tag := by
  induction h with
  | nil => simp
  | cons h _ ih =>
    intro e he
    rcases List.mem_cons.1 he with rfl | he
    · exact List.mem_iff_getElem?.2 ⟨_, h.1⟩
    · exact ih e he

theorem stored_mem {tags : List TagEntry} {es : List (List Char × List Char)} {new : Assigned}
    (h : Stored tags es new) {e : List Char × List Char} (he : e ∈ es) :
    ∃ p ∈ new, tagIs tags p.1 e.1 ∧ p.2 = e.2 := by
  induction h with
  | nil => simp at he
  | cons h _ ih =>
    rcases List.mem_cons.1 he with rfl | he
    · exact ⟨_, by simp, h⟩
    · obtain ⟨p, hp, hh⟩ := ih he
      exact ⟨p, by simp [hp], hh⟩

theorem stored_nodup {tags : List TagEntry} (hnd : (tags.map TagEntry.tag).Nodup)
    {es : List (List Char × List Char)} {new : Assigned}
    (h : Stored tags es new) (hn : (new.map Prod.fst).Nodup) : (es.map Prod.fst).Nodup := by
  induction h with
  | nil => simp
  | cons h ht ih =>
    rw [List.map_cons, List.nodup_cons] at hn ⊢
    refine ⟨?_, ih hn.2⟩
    intro hm
    obtain ⟨e, he, hee⟩ := List.mem_map.1 hm
    obtain ⟨p, hp, h1, -⟩ := stored_mem ht he
    rw [hee] at h1
    exact hn.1 (List.mem_map.2 ⟨p, hp, tagIs_inj hnd h1 h.1⟩)

/-- Field written by a tag. -/
def fieldOf (tags : List TagEntry) (t : List Char) : Option String :=
  (tags.find? fun e => e.tag == t).map TagEntry.field

theorem fieldOf_eq {tags : List TagEntry} (hnd : (tags.map TagEntry.tag).Nodup) {j : ℕ} {t : List Char}
    (h : tagIs tags j t) : (tags[j]?).map TagEntry.field = fieldOf tags t := by
  unfold fieldOf
  induction tags generalizing j with
  | nil => simp [tagIs] at h
  | cons a tags ih =>
    rw [List.map_cons, List.nodup_cons] at hnd
    cases j with
    | zero =>
      have h : a.tag = t := by simpa [tagIs] using h
      simp [h]
    | succ j =>
      have h : tagIs tags j t := by simpa [tagIs] using h
      have hne : a.tag ≠ t := by
        rintro rfl
        exact hnd.1 (List.mem_iff_getElem?.2 ⟨j, by simpa [tagIs] using h⟩)
      rw [List.getElem?_cons_succ, ih hnd.2 h, List.find?_cons_of_neg (by simpa using hne)]

theorem fieldText_stored {tags : List TagEntry} (hnd : (tags.map TagEntry.tag).Nodup)
    {es : List (List Char × List Char)} {st : Assigned} (h : Stored tags es st) (f : String) :
    fieldText tags st f = ((es.filter fun e => fieldOf tags e.1 == some f).getLast?).map Prod.snd := by
  unfold fieldText
  have : ((st.filter fun p => (tags[p.1]?).map TagEntry.field == some f).map Prod.snd) =
      ((es.filter fun e => fieldOf tags e.1 == some f).map Prod.snd) := by
    induction h with
    | nil => rfl
    | @cons e p es st h ht ih =>
      rw [List.filter_cons, List.filter_cons, fieldOf_eq hnd h.1]
      split
      · simp [ih, h.2]
      · exact ih
  rw [← List.getLast?_map, ← List.getLast?_map, this]

/-! ## Entries of a text of lines -/

theorem twoWords_newline (l : List Char) : twoWords (l ++ ['\n']) = twoWords l := by
  cases h : twoWords l with
  | some p => exact twoWords_eq_some.2 (isEntry_newline.2 (twoWords_eq_some.1 h))
  | none =>
    cases h2 : twoWords (l ++ ['\n']) with
    | none => rfl
    | some p =>
      have := twoWords_eq_some.2 (isEntry_newline.1 (twoWords_eq_some.1 h2))
      rw [this] at h; cases h

theorem entriesOf_text (comment : Char → Bool) (lines : List (List Char)) (last : List Char)
    (h : ∀ l ∈ lines, '\n' ∉ l ∧ l.length ≤ 198) (hl : '\n' ∉ last ∧ last.length ≤ 199) :
    entriesOf comment (fgetsAll 198 (textOf lines last)) = entriesOf comment (allLines lines last) := by
  unfold textOf allLines
  rw [fgetsAll_lines lines last h hl]
  unfold entriesOf
  rw [List.filterMap_append, List.filterMap_append, List.filterMap_map]
  congr 1
  apply List.filterMap_congr
  intro l _
  simp only [Function.comp, twoWords_newline]

theorem mem_entriesOf {comment : Char → Bool} {ls : List (List Char)} {t v : List Char} :
    (t, v) ∈ entriesOf comment ls ↔ ∃ i, EntryAt comment ls i t v := by
  unfold entriesOf EntryAt
  rw [List.mem_filterMap]
  constructor
  · rintro ⟨l, hl, h⟩
    obtain ⟨i, hi⟩ := List.mem_iff_getElem?.1 hl
    cases h2 : twoWords l with
    | none => rw [h2] at h; cases h
    | some p =>
      rw [h2] at h
      simp only at h
      split at h
      · cases h
      · rename_i hc
        cases h
        exact ⟨i, l, hi, twoWords_eq_some.1 h2, by simpa using hc⟩
  · rintro ⟨i, l, hi, he, hc⟩
    refine ⟨l, List.mem_iff_getElem?.2 ⟨i, hi⟩, ?_⟩
    rw [twoWords_eq_some.2 he]
    simp only [hc, Bool.false_eq_true, if_false]

theorem entriesOf_nodup {comment : Char → Bool} {ls : List (List Char)} :
    ((entriesOf comment ls).map Prod.fst).Nodup ↔
      ∀ i j t v v', i < j → EntryAt comment ls i t v → EntryAt comment ls j t v' → False := by
  induction ls with
  | nil => simp [entriesOf, EntryAt]
  | cons l ls ih =>
    have hshift : ∀ i t v, EntryAt comment (l :: ls) (i + 1) t v ↔ EntryAt comment ls i t v := by
      intro i t v; simp [EntryAt]
    have h0 : ∀ t v, EntryAt comment (l :: ls) 0 t v ↔
        twoWords l = some (t, v) ∧ comment (t.headD ' ') = false := by
      intro t v; simp only [EntryAt, List.getElem?_cons_zero, Option.some.injEq]
      constructor
      · rintro ⟨l', rfl, h, hc⟩; exact ⟨twoWords_eq_some.2 h, hc⟩
      · rintro ⟨h, hc⟩; exact ⟨l, rfl, twoWords_eq_some.1 h, hc⟩
    have tail : (∀ i j t v v', i < j → EntryAt comment (l :: ls) i t v →
        EntryAt comment (l :: ls) j t v' → False) ↔
        (∀ t v, twoWords l = some (t, v) → comment (t.headD ' ') = false →
          ∀ v' j, ¬ EntryAt comment ls j t v') ∧
        (∀ i j t v v', i < j → EntryAt comment ls i t v → EntryAt comment ls j t v' → False) := by
      constructor
      · intro h
        refine ⟨fun t v h1 h2 v' j h3 => h 0 (j + 1) t v v' (by omega) ((h0 t v).2 ⟨h1, h2⟩)
          ((hshift _ _ _).2 h3), ?_⟩
        intro i j t v v' hij h1 h2
        exact h (i + 1) (j + 1) t v v' (by omega) ((hshift _ _ _).2 h1) ((hshift _ _ _).2 h2)
      · rintro ⟨ha, hb⟩ i j t v v' hij h1 h2
        obtain ⟨j, rfl⟩ : ∃ k, j = k + 1 := ⟨j - 1, by omega⟩
        rw [hshift] at h2
        cases i with
        | zero => rw [h0] at h1; exact ha t v h1.1 h1.2 v' j h2
        | succ i => rw [hshift] at h1; exact hb i j t v v' (by omega) h1 h2
    rw [tail, ← ih]
    have hcons : entriesOf comment (l :: ls) = (match twoWords l with
        | none => entriesOf comment ls
        | some (w, v) => if comment (w.headD ' ') then entriesOf comment ls
            else (w, v) :: entriesOf comment ls) := by
      unfold entriesOf
      rw [List.filterMap_cons]
      cases twoWords l with
      | none => rfl
      | some p =>
        obtain ⟨w, v⟩ := p
        simp only
        split <;> simp_all
    rw [hcons]
    cases h2 : twoWords l with
    | none => simp
    | some p =>
      obtain ⟨w, v⟩ := p
      simp only
      by_cases hc : comment (w.headD ' ') = true
      · simp only [hc, if_true]
        constructor
        · intro h
          refine ⟨?_, h⟩
          intro t v' he hc'
          simp only [Option.some.injEq, Prod.mk.injEq] at he
          rw [← he.1, hc] at hc'; cases hc'
        · exact fun h => h.2
      · simp only [hc, if_false, Bool.false_eq_true, List.map_cons, List.nodup_cons]
        refine and_congr ?_ Iff.rfl
        constructor
        · intro h t v' he _ v'' j hj
          simp only [Option.some.injEq, Prod.mk.injEq] at he
          obtain ⟨rfl, rfl⟩ := he
          exact h (List.mem_map.2 ⟨(w, v''), mem_entriesOf.2 ⟨j, hj⟩, rfl⟩)
        · intro h hm
          obtain ⟨⟨t, v'⟩, hp, rfl⟩ := List.mem_map.1 hm
          obtain ⟨j, hj⟩ := mem_entriesOf.1 hp
          exact h t v rfl (by simpa using hc) v' j hj

/-! ## Reading a text -/

theorem readTags_text (comment : Char → Bool) (tags : List TagEntry) (lines : List (List Char))
    (last : List Char) (h : ∀ l ∈ lines, '\n' ∉ l ∧ l.length ≤ 198)
    (hl : '\n' ∉ last ∧ last.length ≤ 199) :
    readTags comment tags (textOf lines last) =
      entLoop tags [] (entriesOf comment (allLines lines last)) := by
  rw [readTags, tagLoop_eq, entriesOf_text comment lines last h hl]

theorem entLoop_nil_ok {tags : List TagEntry} (hnd : (tags.map TagEntry.tag).Nodup)
    {es : List (List Char × List Char)} :
    (∃ st, entLoop tags [] es = .ok st) ↔
      (∀ e ∈ es, e.1 ∈ tags.map TagEntry.tag) ∧ (es.map Prod.fst).Nodup := by
  constructor
  · rintro ⟨st, h⟩
    obtain ⟨new, e1, e2, e3⟩ := entLoop_ok h (by simp)
    rw [List.nil_append] at e1
    subst e1
    exact ⟨stored_known e2, stored_nodup hnd e2 e3⟩
  · rintro ⟨h1, h2⟩
    exact entLoop_of hnd h1 h2 (by simp)

theorem entLoop_nil_stored {tags : List TagEntry} {es : List (List Char × List Char)} {st : Assigned}
    (h : entLoop tags [] es = .ok st) : Stored tags es st := by
  obtain ⟨new, e1, e2, -⟩ := entLoop_ok h (by simp)
  rw [List.nil_append] at e1
  subst e1
  exact e2

theorem readTags_accept (comment : Char → Bool) (tags : List TagEntry)
    (hnd : (tags.map TagEntry.tag).Nodup) (lines : List (List Char)) (last : List Char)
    (h : ∀ l ∈ lines, '\n' ∉ l ∧ l.length ≤ 198) (hl : '\n' ∉ last ∧ last.length ≤ 199) :
    ((∃ st, readTags comment tags (textOf lines last) = .ok st) ↔
      (∀ i t v, EntryAt comment (allLines lines last) i t v → t ∈ tags.map TagEntry.tag) ∧
      (∀ i j t v v', i < j → EntryAt comment (allLines lines last) i t v →
        EntryAt comment (allLines lines last) j t v' → False)) ∧
    ((∃ st, readTags comment tags (textOf lines last) = .ok st) ∨
      readTags comment tags (textOf lines last) = .exit) := by
  rw [readTags_text _ _ _ _ h hl]
  refine ⟨?_, entLoop_ok_or_exit _ _ _⟩
  rw [entLoop_nil_ok hnd, entriesOf_nodup]
  refine and_congr ?_ Iff.rfl
  constructor
  · intro h i t v he; exact h (t, v) (mem_entriesOf.2 ⟨i, he⟩)
  · rintro h ⟨t, v⟩ he
    obtain ⟨i, hi⟩ := mem_entriesOf.1 he
    exact h i t v hi

/-- The last entry of a list of lines that satisfies a condition. -/
theorem last_entry {comment : Char → Bool} {p : List Char → Bool} {ls : List (List Char)} {v : List Char} :
    ((((entriesOf comment ls).filter fun e => p e.1).getLast?).map Prod.snd = some v) ↔
      ∃ i t, EntryAt comment ls i t v ∧ p t = true ∧
        ∀ j t' v', i < j → EntryAt comment ls j t' v' → p t' = false := by
  induction ls using List.reverseRecOn generalizing v with
  | nil => simp [entriesOf, EntryAt]
  | append_singleton ls l ih =>
    have hold : ∀ i t v, i < ls.length → (EntryAt comment (ls ++ [l]) i t v ↔ EntryAt comment ls i t v) := by
      intro i t v hi; simp [EntryAt, List.getElem?_append_left hi]
    have hnew : ∀ t v, EntryAt comment (ls ++ [l]) ls.length t v ↔
        twoWords l = some (t, v) ∧ comment (t.headD ' ') = false := by
      intro t v; simp only [EntryAt, List.getElem?_concat_length, Option.some.injEq]
      constructor
      · rintro ⟨l', rfl, h, hc⟩; exact ⟨twoWords_eq_some.2 h, hc⟩
      · rintro ⟨h, hc⟩; exact ⟨l, rfl, twoWords_eq_some.1 h, hc⟩
    have hout : ∀ i t v, ls.length < i → ¬ EntryAt comment (ls ++ [l]) i t v := by
      intro i t v hi ⟨l', h, _⟩
      rw [List.getElem?_eq_none (by simp; omega)] at h; cases h
    have hin : ∀ i t v, EntryAt comment ls i t v → i < ls.length := by
      rintro i t v ⟨l', h, _⟩
      exact (List.getElem?_eq_some_iff.1 h).1
    have skip : (∀ t v, twoWords l = some (t, v) → comment (t.headD ' ') = false → p t = false) →
        ((∃ i t, EntryAt comment (ls ++ [l]) i t v ∧ p t = true ∧
          ∀ j t' v', i < j → EntryAt comment (ls ++ [l]) j t' v' → p t' = false) ↔
        ∃ i t, EntryAt comment ls i t v ∧ p t = true ∧
          ∀ j t' v', i < j → EntryAt comment ls j t' v' → p t' = false) := by
      intro hs
      constructor
      · rintro ⟨i, t, h1, h2, h3⟩
        rcases Nat.lt_trichotomy i ls.length with hi | hi | hi
        · refine ⟨i, t, (hold _ _ _ hi).1 h1, h2, fun j t' v' hij hj => h3 j t' v' hij ?_⟩
          exact (hold _ _ _ (hin _ _ _ hj)).2 hj
        · subst hi
          rw [hnew] at h1
          rw [hs t v h1.1 h1.2] at h2; cases h2
        · exact absurd h1 (hout _ _ _ hi)
      · rintro ⟨i, t, h1, h2, h3⟩
        refine ⟨i, t, (hold _ _ _ (hin _ _ _ h1)).2 h1, h2, fun j t' v' hij hj => ?_⟩
        rcases Nat.lt_trichotomy j ls.length with hi | hi | hi
        · exact h3 j t' v' hij ((hold _ _ _ hi).1 hj)
        · subst hi
          rw [hnew] at hj
          exact hs t' v' hj.1 hj.2
        · exact absurd hj (hout _ _ _ hi)
    have happ : entriesOf comment (ls ++ [l]) = entriesOf comment ls ++ (match twoWords l with
        | none => []
        | some (w, v) => if comment (w.headD ' ') then [] else [(w, v)]) := by
      unfold entriesOf
      rw [List.filterMap_append]
      congr 1
      rw [List.filterMap_cons]
      cases twoWords l with
      | none => rfl
      | some q =>
        obtain ⟨w, v⟩ := q
        simp only [List.filterMap_nil]
        split <;> simp_all
    rw [happ]
    cases h2 : twoWords l with
    | none =>
      simp only [List.append_nil]
      rw [ih, skip]
      intro t v h; rw [h2] at h; cases h
    | some q =>
      obtain ⟨w, u⟩ := q
      simp only
      by_cases hc : comment (w.headD ' ') = true
      · simp only [hc, if_true, List.append_nil]
        rw [ih, skip]
        intro t v h hc'; rw [h2] at h; cases h; rw [hc] at hc'; cases hc'
      · simp only [hc, if_false, Bool.false_eq_true, List.filter_append]
        cases hp : p w with
        | false =>
          simp only [List.filter_cons, hp, Bool.false_eq_true, if_false, List.filter_nil, List.append_nil]
          rw [ih, skip]
          intro t v h hc'; rw [h2] at h; cases h; exact hp
        | true =>
          simp only [List.filter_cons, hp, if_true, List.filter_nil, List.getLast?_concat, Option.map_some,
            Option.some.injEq]
          constructor
          · rintro rfl
            refine ⟨ls.length, w, (hnew _ _).2 ⟨h2, by simpa using hc⟩, hp, ?_⟩
            intro j t' v' hj he
            exact absurd he (hout _ _ _ hj)
          · rintro ⟨i, t, h1, hpt, h3⟩
            rcases Nat.lt_trichotomy i ls.length with hi | hi | hi
            · have := h3 ls.length w u hi ((hnew _ _).2 ⟨h2, by simpa using hc⟩)
              rw [hp] at this; cases this
            · subst hi
              rw [hnew, h2] at h1
              simp only [Option.some.injEq, Prod.mk.injEq] at h1
              exact h1.1.2
            · exact absurd h1 (hout _ _ _ hi)

/-- A list whose filtered part has pairwise equal keys, keys being distinct, keeps at most one. -/
theorem filter_le_one {es : List (List Char × List Char)} (hn : (es.map Prod.fst).Nodup)
    (p : List Char × List Char → Bool)
    (h : ∀ a ∈ es, ∀ b ∈ es, p a = true → p b = true → a.1 = b.1) : (es.filter p).length ≤ 1 := by
  have hs : ((es.filter p).map Prod.fst).Nodup := hn.sublist (List.filter_sublist.map _)
  rcases hf : es.filter p with _ | ⟨a, _ | ⟨b, l⟩⟩
  · simp
  · simp
  · exfalso
    rw [hf] at hs
    have ha : a ∈ es.filter p := by rw [hf]; simp
    have hb : b ∈ es.filter p := by rw [hf]; simp
    rw [List.mem_filter] at ha hb
    have := h a ha.1 b hb.1 ha.2 hb.2
    simp [this] at hs

theorem perm_le_one {α : Type} {l l' : List α} (h : l.Perm l') (hl : l.length ≤ 1) : l = l' := by
  rcases l with _ | ⟨a, _ | ⟨b, l⟩⟩
  · exact h.nil_eq
  · exact (List.perm_singleton.1 h.symm).symm
  · simp at hl

theorem fieldText_perm {tags : List TagEntry} (hnd : (tags.map TagEntry.tag).Nodup)
    {es es' : List (List Char × List Char)} {st st' : Assigned} (h : entLoop tags [] es = .ok st)
    (h' : entLoop tags [] es' = .ok st') (hp : es.Perm es') (f : String)
    (hf : ∀ a ∈ es, ∀ b ∈ es, fieldOf tags a.1 = some f → fieldOf tags b.1 = some f → a.1 = b.1) :
    fieldText tags st f = fieldText tags st' f := by
  rw [fieldText_stored hnd (entLoop_nil_stored h), fieldText_stored hnd (entLoop_nil_stored h')]
  have hl := filter_le_one ((entLoop_nil_ok hnd).1 ⟨st, h⟩).2 (fun e => fieldOf tags e.1 == some f)
    (by intro a ha b hb h1 h2; exact hf a ha b hb (by simpa using h1) (by simpa using h2))
  rw [perm_le_one (hp.filter _) hl]

theorem cfgOf_congr (atof : List Char → ℝ) {st st' : Assigned}
    (h : ∀ f, fieldText parTags st f = fieldText parTags st' f) : cfgOf atof st = cfgOf atof st' := by
  simp only [cfgOf, intField, realField, textField, h]

/-- Aliases in the table: only the two pairs for the numbers of components. -/
theorem parTags_alias : ∀ t ∈ parTags.map TagEntry.tag, ∀ t' ∈ parTags.map TagEntry.tag,
    fieldOf parTags t = fieldOf parTags t' → t = t' ∨
      (t, t') ∈ [("NumGaussianLow".toList, "NumCompLow".toList), ("NumCompLow".toList, "NumGaussianLow".toList),
        ("NumGaussianUpp".toList, "NumCompUpp".toList), ("NumCompUpp".toList, "NumGaussianUpp".toList)] := by
  decide +kernel

theorem parTags_nodup : (parTags.map TagEntry.tag).Nodup := by decide +kernel

theorem optTags_nodup : (optTags.map TagEntry.tag).Nodup := by decide +kernel

/-! ## Checks -/

theorem res_exit_ne_ok {α : Type} {a : α} : (Res.exit : Res α) ≠ .ok a := by intro h; cases h

theorem toIntC_int {z : ℤ} (h1 : -2147483648 ≤ z) (h2 : z ≤ 2147483647) : toIntC (z : ℝ) = .ok z := by
  unfold toIntC
  have : (if 0 ≤ (z : ℝ) then ⌊(z : ℝ)⌋ else ⌈(z : ℝ)⌉) = z := by simp
  simp only [this, h1, h2, and_self, if_true]

theorem toIntC_2 : toIntC 2 = .ok 2 := by have := toIntC_int (z := 2) (by decide) (by decide); simpa using this
theorem toIntC_3 : toIntC 3 = .ok 3 := by have := toIntC_int (z := 3) (by decide) (by decide); simpa using this
theorem toIntC_5 : toIntC 5 = .ok 5 := by have := toIntC_int (z := 5) (by decide) (by decide); simpa using this
theorem toIntC_7 : toIntC 7 = .ok 7 := by have := toIntC_int (z := 7) (by decide) (by decide); simpa using this

/-- The members `read_parset` looks at. -/
def cfgFields : List String :=
  ["model", "flag_uniform_var_params", "flag_uniform_tranfuns", "flag_trend", "flag_negative_resp", "num_gaussian_low", "num_gaussian_upper", "type_lag_prior", "type_tf", "flag_lag_posivity", "nd_rec", "lag_limit_low", "lag_limit_upper", "width_limit_low", "width_limit_upper", "str_lag_prior", "str_type_tf_mix"]

/-- The texts of all of them at once. -/
theorem cfgOf_texts (atof : List Char → ℝ) (st : Assigned) (o : String → Option (List Char))
    (h : ∀ f ∈ cfgFields, fieldText parTags st f = o f) :
    cfgOf atof st =
      ((match o "model" with | some t => toIntC (atof t) | none => .ok 0) >>= fun model =>
      (match o "flag_uniform_var_params" with | some t => toIntC (atof t) | none => .ok 0) >>= fun uniVar =>
      (match o "flag_uniform_tranfuns" with | some t => toIntC (atof t) | none => .ok 0) >>= fun uniTf =>
      (match o "flag_trend" with | some t => toIntC (atof t) | none => .ok 0) >>= fun trend =>
      (match o "flag_negative_resp" with | some t => toIntC (atof t) | none => .ok 0) >>= fun negResp =>
      (match o "num_gaussian_low" with | some t => toIntC (atof t) | none => .ok 1) >>= fun ngLow =>
      (match o "num_gaussian_upper" with | some t => toIntC (atof t) | none => .ok 1) >>= fun ngUpp =>
      (match o "type_lag_prior" with | some t => toIntC (atof t) | none => .ok 0) >>= fun typeLag =>
      (match o "type_tf" with | some t => toIntC (atof t) | none => .ok 0) >>= fun typeTf =>
      (match o "flag_lag_posivity" with | some t => toIntC (atof t) | none => .ok 0) >>= fun posivity =>
      (match o "nd_rec" with | some t => toIntC (atof t) | none => .ok 200) >>= fun ndRec =>
      .ok { model, uniVar, uniTf, trend, negResp, ngLow, ngUpp, typeLag, typeTf, posivity, ndRec
            lagLow := match o "lag_limit_low" with | some t => atof t | none => 0
            lagUpp := match o "lag_limit_upper" with | some t => atof t | none => -1
            widthLow := match o "width_limit_low" with | some t => atof t | none => DBL_MAX
            widthUpp := match o "width_limit_upper" with | some t => atof t | none => DBL_MAX
            widthLowSet := false, widthUppSet := false, ngDiff := 0
            strLag := (o "str_lag_prior").getD []
            strMix := (o "str_type_tf_mix").getD [] }) := by
  simp only [cfgFields, List.forall_mem_cons] at h
  simp only [cfgOf, intField, realField, textField, h]
  rfl

end Mica
