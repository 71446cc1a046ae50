import Verif.Proof.Config
import Verif.Proof.Data
import Verif.Proof.ParNames
import Verif.Model.Options
import Verif.Spec.Options
import Mathlib.Tactic.Ring
import Mathlib.Tactic.FieldSimp
import Mathlib.Tactic.Linarith
import Mathlib.Tactic.IntervalCases

/-! # The sampler's option files: lemmas -/

namespace Mica

/-! ## Values of an accepted file -/

/-- Tags and members of the options correspond. -/
def optPairs : List (String × String) :=
  [("NumberParticles", "num_particles"), ("NewLevelIntervalFactor", "new_level_interval_factor"),
   ("SaveIntervalFactor", "save_interval_factor"), ("ThreadStepsFactor", "thread_steps_factor"),
   ("MaxNumberLevels", "max_num_levels"), ("BacktrackingLength", "lam"),
   ("StrengthEqualPush", "beta"), ("MaxNumberSaves", "max_num_saves"), ("PTol", "max_ptol")]

theorem fieldOf_optPairs : ∀ p ∈ optPairs, ∀ t, (fieldOf optTags t == some p.2) = true ↔ t = p.1.toList := by
  have h1 : ∀ p ∈ optPairs, fieldOf optTags p.1.toList = some p.2 := by decide +kernel
  have h2 : ∀ p ∈ optPairs, ∀ e ∈ optTags, e.field = p.2 → e.tag = p.1.toList := by decide +kernel
  intro p hp t
  rw [beq_iff_eq]
  constructor
  · intro hf
    unfold fieldOf at hf
    obtain ⟨e, he, hfe⟩ := Option.map_eq_some_iff.1 hf
    have ht : e.tag = t := by simpa using List.find?_some he
    rw [← ht]
    exact h2 p hp e (List.mem_of_find?_eq_some he) hfe
  · rintro rfl; exact h1 p hp

theorem optField_entries {es : List (List Char × List Char)} {st : Assigned}
    (hst : entLoop optTags [] es = .ok st) {p : String × String} (hp : p ∈ optPairs) (v : List Char) :
    fieldText optTags st p.2 = some v ↔ (p.1.toList, v) ∈ es := by
  have hnd := (entLoop_nil_ok optTags_nodup).1 ⟨st, hst⟩
  rw [fieldText_stored optTags_nodup (entLoop_nil_stored hst)]
  have hf : (es.filter fun e => fieldOf optTags e.1 == some p.2) = es.filter fun e => decide (e.1 = p.1.toList) := by
    apply List.filter_congr
    intro e _
    rw [Bool.eq_iff_iff, fieldOf_optPairs p hp, decide_eq_true_iff]
  rw [hf]
  clear hf hst
  obtain ⟨-, hn⟩ := hnd
  constructor
  · intro h
    obtain ⟨e, he, rfl⟩ := Option.map_eq_some_iff.1 h
    have hm := List.mem_filter.1 (List.mem_of_getLast? he)
    rw [← of_decide_eq_true hm.2]
    exact hm.1
  · intro h
    have key : (es.filter fun e => decide (e.1 = p.1.toList)) = [(p.1.toList, v)] := by
      induction es with
      | nil => simp at h
      | cons e es ih =>
        rw [List.map_cons, List.nodup_cons] at hn
        rcases List.mem_cons.1 h with rfl | h'
        · rw [List.filter_cons_of_pos (by simp), List.filter_eq_nil_iff.2]
          intro e he
          simp only [decide_eq_true_eq]
          intro hh
          exact hn.1 (List.mem_map.2 ⟨e, he, hh⟩)
        · rw [List.filter_cons_of_neg, ih hn.2 h']
          simp only [decide_eq_true_eq]
          intro hh
          exact hn.1 (hh ▸ List.mem_map_of_mem (f := Prod.fst) h')
    rw [key]; rfl

theorem optField_line {lines : List (List Char)} {last : List Char}
    (h : ∀ l ∈ lines, '\n' ∉ l ∧ l.length ≤ 198) (hl : '\n' ∉ last ∧ last.length ≤ 199) {st : Assigned}
    (hst : readTags optComment optTags (textOf lines last) = .ok st) {p : String × String} (hp : p ∈ optPairs)
    (v : List Char) :
    fieldText optTags st p.2 = some v ↔ OptLine (allLines lines last) p.1 v := by
  rw [readTags_text _ _ _ _ h hl] at hst
  rw [optField_entries hst hp, mem_entriesOf]
  rfl

theorem realField_opt {atof : List Char → ℝ} {lines : List (List Char)} {last : List Char}
    (h : ∀ l ∈ lines, '\n' ∉ l ∧ l.length ≤ 198) (hl : '\n' ∉ last ∧ last.length ≤ 199) {st : Assigned}
    (hst : readTags optComment optTags (textOf lines last) = .ok st) (p : String × String) (hp : p ∈ optPairs)
    (d : ℝ) : RealOpt atof (allLines lines last) p.1 d (realField atof optTags st p.2 d) := by
  have hv := optField_line h hl hst hp
  constructor
  · intro v hvl
    rw [realField, (hv v).2 hvl]
  · intro hno
    cases hf : fieldText optTags st p.2 with
    | none => rw [realField, hf]
    | some v => exact absurd ((hv v).1 hf) (hno v)

theorem uintField_ok {atof : List Char → ℝ} {lines : List (List Char)} {last : List Char}
    (h : ∀ l ∈ lines, '\n' ∉ l ∧ l.length ≤ 198) (hl : '\n' ∉ last ∧ last.length ≤ 199) {st : Assigned}
    (hst : readTags optComment optTags (textOf lines last) = .ok st) (p : String × String) (hp : p ∈ optPairs)
    (d : ℕ) :
    (∃ n, uintField atof st p.2 d = .ok n ∧ NatOpt atof (allLines lines last) p.1 d n ∧
      ∀ v, OptLine (allLines lines last) p.1 v → -1 < atof v ∧ atof v < 4294967296) ∨
    (uintField atof st p.2 d = .ub ∧
      ∃ v, OptLine (allLines lines last) p.1 v ∧ ¬ (-1 < atof v ∧ atof v < 4294967296)) := by
  have hv := optField_line h hl hst hp
  cases hf : fieldText optTags st p.2 with
  | none =>
    left
    have hno : ∀ v, ¬ OptLine (allLines lines last) p.1 v := by
      intro v hvl; rw [(hv v).2 hvl] at hf; cases hf
    exact ⟨d, by rw [uintField, hf], ⟨fun v hvl => absurd hvl (hno v), fun _ => rfl⟩,
      fun v hvl => absurd hvl (hno v)⟩
  | some v =>
    have hvl := (hv v).1 hf
    have huniq : ∀ w, OptLine (allLines lines last) p.1 w → w = v := by
      intro w hw
      have := ((hv w).2 hw).symm.trans hf
      simpa using this
    by_cases hr : -1 < atof v ∧ atof v < 4294967296
    · left
      refine ⟨⌊atof v⌋₊, by rw [uintField, hf]; simp only [toU32, if_pos hr], ⟨fun w hw => by rw [huniq w hw], ?_⟩,
        fun w hw => by rw [huniq w hw]; exact hr⟩
      intro hno; exact absurd hvl (hno v)
    · right
      exact ⟨by rw [uintField, hf]; simp only [toU32, if_neg hr], v, hvl, hr⟩

/-! ## Two words -/

theorem twoWords_pair (t : String) (k : ℕ) (v : List Char) (ht : t.toList ≠ [])
    (hts : ∀ c ∈ t.toList, isSpaceC c = false) (hv : v ≠ []) (hvs : ∀ c ∈ v, isSpaceC c = false) :
    twoWords (t.toList ++ (List.replicate (k + 1) ' ' ++ v)) = some (t.toList, v) := by
  rw [twoWords_eq_some]
  refine ⟨[], List.replicate (k + 1) ' ', [], by simp, by simp, ht, hts, by simp, ?_, hv, hvs, Or.inl rfl⟩
  intro c hc
  rw [List.eq_of_mem_replicate hc]; rfl

/-! ## Printed numbers -/

theorem isDigit_facts {c : Char} (h : c.isDigit = true) : isSpaceC c = false ∧ c ≠ '\n' ∧ c ≠ '#' := by
  refine ⟨?_, ?_, ?_⟩
  · by_contra hc
    have hc : isSpaceC c = true := by simpa using hc
    unfold isSpaceC at hc
    simp only [Bool.or_eq_true, beq_iff_eq] at hc
    rcases hc with ((((rfl | rfl) | rfl) | rfl) | rfl) | rfl <;> revert h <;> decide
  · rintro rfl; revert h; decide
  · rintro rfl; revert h; decide

theorem digitChar_isDigit {n : ℕ} (h : n < 10) : (n.digitChar).isDigit = true := by
  interval_cases n <;> decide

theorem fmt2_chars (x : ℝ) : ∀ c ∈ fmt2 x, c = '-' ∨ c = '.' ∨ c.isDigit = true := by
  intro c hc
  simp only [fmt2, List.mem_append, List.mem_cons, List.not_mem_nil, or_false] at hc
  rcases hc with hc | hc | rfl | rfl | rfl
  · split at hc
    · left; simpa using hc
    · simp at hc
  · right; right; exact Nat.isDigit_of_mem_toDigits (by norm_num) (by norm_num) hc
  · right; left; rfl
  · right; right; exact digitChar_isDigit (Nat.mod_lt _ (by norm_num))
  · right; right; exact digitChar_isDigit (Nat.mod_lt _ (by norm_num))

theorem fmt2_nonspace (x : ℝ) : ∀ c ∈ fmt2 x, isSpaceC c = false := by
  intro c hc
  rcases fmt2_chars x c hc with rfl | rfl | h
  · rfl
  · rfl
  · exact (isDigit_facts h).1

theorem fmt2_ne_nil (x : ℝ) : fmt2 x ≠ [] := by
  simp [fmt2]

theorem fmtInt_nonspace (z : ℤ) : ∀ c ∈ fmtInt z, isSpaceC c = false := by
  intro c hc
  unfold fmtInt at hc
  have hd : c ∈ Nat.toDigits 10 z.natAbs → isSpaceC c = false := fun h =>
    (isDigit_facts (Nat.isDigit_of_mem_toDigits (by norm_num) (by norm_num) h)).1
  split at hc
  · rcases List.mem_cons.1 hc with rfl | hc
    · rfl
    · exact hd hc
  · exact hd hc

theorem fmtInt_ne_nil (z : ℤ) : fmtInt z ≠ [] := by
  unfold fmtInt
  split
  · simp
  · exact Nat.toDigits_ne_nil

theorem atof_fmtInt {atof : List Char → ℝ} (ha : ReadsDecimals atof) (z : ℤ) : atof (fmtInt z) = z := by
  unfold fmtInt
  split
  · rename_i hz
    obtain ⟨c, s, hcs⟩ := List.exists_cons_of_ne_nil (Nat.toDigits_ne_nil (b := 10) (n := z.natAbs))
    have hc : c.isDigit = true := Nat.isDigit_of_mem_toDigits (b := 10) (n := z.natAbs) (by norm_num) (by norm_num)
      (by rw [hcs]; simp)
    rw [hcs, ha.minus c s hc, ← hcs, ha.whole]
    have : (z : ℝ) = -(((z.natAbs : ℕ) : ℤ) : ℝ) := by
      rw [← Int.cast_neg]; congr 1; omega
    rw [this]; simp
  · rename_i hz
    rw [ha.whole]
    have : (z : ℝ) = (((z.natAbs : ℕ) : ℤ) : ℝ) := by congr 1; omega
    rw [this]; simp

theorem digitsVal_two {a b : ℕ} (ha : a < 10) (hb : b < 10) :
    digitsVal [a.digitChar, b.digitChar] = a * 10 + b := by
  interval_cases a <;> interval_cases b <;> decide

theorem atof_fmt2 {atof : List Char → ℝ} (ha : ReadsDecimals atof) (x : ℝ) : atof (fmt2 x) = printf2 x := by
  have hpos : ∀ n : ℕ, atof (Nat.toDigits 10 (n / 100) ++ ['.', (n / 10 % 10).digitChar, (n % 10).digitChar]) =
      (n : ℝ) / 100 := by
    intro n
    have h1 : n / 10 % 10 < 10 := Nat.mod_lt _ (by norm_num)
    have h2 : n % 10 < 10 := Nat.mod_lt _ (by norm_num)
    rw [ha.point, digitsVal_two h1 h2]
    · have : ((n : ℕ) : ℝ) = ((n / 100 * 100 + (n / 10 % 10 * 10 + n % 10) : ℕ) : ℝ) := by
        congr 1; omega
      rw [this]
      push_cast
      simp only [List.length_cons, List.length_nil]
      ring
    · intro c hc
      simp only [List.mem_cons, List.not_mem_nil, or_false] at hc
      rcases hc with rfl | rfl
      · exact digitChar_isDigit h1
      · exact digitChar_isDigit h2
  unfold fmt2 printf2
  simp only
  generalize _root_.round (x * 100) = z
  split
  · rename_i hz
    obtain ⟨c, s, hcs⟩ := List.exists_cons_of_ne_nil (Nat.toDigits_ne_nil (b := 10) (n := z.natAbs / 100))
    have hc : c.isDigit = true := Nat.isDigit_of_mem_toDigits (b := 10) (n := z.natAbs / 100) (by norm_num) (by norm_num)
      (by rw [hcs]; simp)
    have := hpos z.natAbs
    rw [hcs] at this ⊢
    rw [List.cons_append, List.nil_append, List.cons_append, ha.minus c _ hc, ← List.cons_append, this]
    have : (z : ℝ) = -(((z.natAbs : ℕ) : ℤ) : ℝ) := by
      rw [← Int.cast_neg]; congr 1; omega
    rw [this]; simp only [Int.cast_natCast]; ring
  · rename_i hz
    rw [List.nil_append, hpos]
    have : (z : ℝ) = (((z.natAbs : ℕ) : ℤ) : ℝ) := by congr 1; omega
    rw [this]; simp

/-! ## Reading the file of the line stage -/

/-- The entries of the file of the line stage. -/
noncomputable def lineEntries (o : SampOpts) : List (List Char × List Char) :=
  [("MaxNumberSaves".toList, fmtInt o.maxSaves), ("PTol".toList, fmt2 o.ptol),
   ("NumberParticles".toList, fmtInt o.numParticles), ("NewLevelIntervalFactor".toList, fmt2 o.newLevelFactor),
   ("SaveIntervalFactor".toList, fmt2 o.saveFactor), ("ThreadStepsFactor".toList, fmt2 o.threadFactor),
   ("MaxNumberLevels".toList, fmtInt o.maxLevels), ("BacktrackingLength".toList, fmt2 o.lam),
   ("StrengthEqualPush".toList, fmt2 o.beta)]

theorem entriesOf_append (comment : Char → Bool) (a b : List (List Char)) :
    entriesOf comment (a ++ b) = entriesOf comment a ++ entriesOf comment b := List.filterMap_append

theorem entriesOf_pair (comment : Char → Bool) (t : String) (k : ℕ) (v : List Char) (ls : List (List Char))
    (ht : t.toList ≠ []) (hts : ∀ c ∈ t.toList, isSpaceC c = false) (hc : comment (t.toList.headD ' ') = false)
    (hv : v ≠ []) (hvs : ∀ c ∈ v, isSpaceC c = false) :
    entriesOf comment ((t.toList ++ (List.replicate (k + 1) ' ' ++ v)) :: ls) =
      (t.toList, v) :: entriesOf comment ls := by
  rw [entriesOf, List.filterMap_cons, twoWords_pair t k v ht hts hv hvs]
  simp only [hc, Bool.false_eq_true, if_false]
  rfl

theorem entriesOf_lineSettings (o : SampOpts) : entriesOf optComment (lineSettings o) = lineEntries o := by
  have e : lineSettings o =
    ["MaxNumberSaves".toList ++ (List.replicate (11 + 1) ' ' ++ fmtInt o.maxSaves),
     "PTol".toList ++ (List.replicate (21 + 1) ' ' ++ fmt2 o.ptol),
     "NumberParticles".toList ++ (List.replicate (10 + 1) ' ' ++ fmtInt o.numParticles),
     "NewLevelIntervalFactor".toList ++ (List.replicate (3 + 1) ' ' ++ fmt2 o.newLevelFactor),
     "SaveIntervalFactor".toList ++ (List.replicate (7 + 1) ' ' ++ fmt2 o.saveFactor),
     "ThreadStepsFactor".toList ++ (List.replicate (8 + 1) ' ' ++ fmt2 o.threadFactor),
     "MaxNumberLevels".toList ++ (List.replicate (10 + 1) ' ' ++ fmtInt o.maxLevels),
     "BacktrackingLength".toList ++ (List.replicate (7 + 1) ' ' ++ fmt2 o.lam),
     "StrengthEqualPush".toList ++ (List.replicate (8 + 1) ' ' ++ fmt2 o.beta)] := by
    unfold lineSettings
    simp only [← List.append_assoc]
    rfl
  rw [e]
  unfold lineEntries
  rw [entriesOf_pair, entriesOf_pair, entriesOf_pair, entriesOf_pair, entriesOf_pair, entriesOf_pair,
    entriesOf_pair, entriesOf_pair, entriesOf_pair]
  · rfl
  all_goals first
    | exact fmtInt_ne_nil _
    | exact fmt2_ne_nil _
    | exact fmtInt_nonspace _
    | exact fmt2_nonspace _
    | decide

/-- Lines that fit the buffer. -/
def FitsLine (l : List Char) : Prop := '\n' ∉ l ∧ l.length ≤ 198

instance : DecidablePred FitsLine := fun l => inferInstanceAs (Decidable ('\n' ∉ l ∧ l.length ≤ 198))

theorem nonspace_newline {v : List Char} (h : ∀ c ∈ v, isSpaceC c = false) : '\n' ∉ v := by
  intro hm; have := h _ hm; revert this; decide

theorem fits_append {a v : List Char} (ha : '\n' ∉ a ∧ a.length = 26) (hv : ∀ c ∈ v, isSpaceC c = false)
    (hl : v.length ≤ 160) : FitsLine (a ++ v) := by
  refine ⟨?_, by rw [List.length_append]; omega⟩
  rw [List.mem_append, not_or]
  exact ⟨ha.1, nonspace_newline hv⟩

theorem fmtInt_length {z : ℤ} (h : |z| < 2 ^ 31) : (fmtInt z).length ≤ 160 := by
  have hn : z.natAbs < 2 ^ 32 := by rw [abs_lt] at h; omega
  have := toDigits_ten z.natAbs hn
  unfold fmtInt
  split
  · rw [List.length_cons]; omega
  · omega

theorem fmt2_length {x : ℝ} (h : |x| < 10 ^ 150) : (fmt2 x).length ≤ 160 := by
  unfold fmt2
  simp only
  have hr := abs_sub_round (x * 100)
  generalize hz : _root_.round (x * 100) = z at hr ⊢
  have hx : |(z : ℝ)| < 10 ^ 152 + 1 := by
    rw [abs_lt] at h ⊢
    rw [abs_le] at hr
    have e : (10 : ℝ) ^ 152 = 10 ^ 150 * 100 := by ring
    rw [e]
    constructor
    · linarith [hr.1, hr.2, h.1, h.2]
    · linarith [hr.1, hr.2, h.1, h.2]
  have hn : z.natAbs < 10 ^ 152 + 1 := by
    have : ((z.natAbs : ℕ) : ℝ) = |(z : ℝ)| := by rw [← Int.cast_abs, Int.abs_eq_natAbs]; simp
    rw [← this] at hx
    exact_mod_cast hx
  have hd : z.natAbs / 100 < 10 ^ 151 := by
    rw [Nat.div_lt_iff_lt_mul (by norm_num)]
    have : (10 : ℕ) ^ 151 * 100 = 10 ^ 153 := by ring
    rw [this]
    have : (10 : ℕ) ^ 153 = 10 ^ 152 * 10 := by ring
    have h1 : 1 ≤ (10 : ℕ) ^ 152 := Nat.one_le_pow _ _ (by norm_num)
    omega
  have := Nat.toDigits_length 10 (z.natAbs / 100) 151 (by norm_num) hd
  simp only [List.length_append, List.length_cons, List.length_nil]
  split
  · simp only [List.length_cons, List.length_nil]; omega
  · simp only [List.length_nil]; omega

theorem fits_lineSettings {o : SampOpts} (h : Printable o) : ∀ l ∈ lineSettings o, FitsLine l := by
  obtain ⟨hi, hr⟩ := h
  simp only [List.forall_mem_cons] at hi hr
  obtain ⟨i1, i2, i3, -⟩ := hi
  obtain ⟨r1, r2, r3, r4, r5, r6, -⟩ := hr
  simp only [lineSettings, List.forall_mem_cons]
  refine ⟨?_, ?_, ?_, ?_, ?_, ?_, ?_, ?_, ?_, by simp⟩
  all_goals first
    | exact fits_append (by decide) (fmtInt_nonspace _) (fmtInt_length (by assumption))
    | exact fits_append (by decide) (fmt2_nonspace _) (fmt2_length (by assumption))

theorem closed_textOf (ls : List (List Char)) (last : List Char) : closed ls ++ last = textOf ls last := rfl

theorem readTags_line {o : SampOpts} (h : Printable o) :
    readTags optComment optTags (writeOptionsLine o) = entLoop optTags [] (lineEntries o) := by
  unfold writeOptionsLine
  rw [closed_textOf, readTags_text]
  · rw [allLines, if_neg (by decide), entriesOf_append, entriesOf_append, entriesOf_append, entriesOf_append,
      entriesOf_lineSettings]
    have e1 : entriesOf optComment (optHead "# DNest options for continuum-line time lag analysis") = [] := by
      decide +kernel
    have e2 : entriesOf optComment [[], []] = [] := by decide +kernel
    have e3 : entriesOf optComment (optTail lineListed).1 = [] := by decide +kernel
    have e4 : entriesOf optComment [(optTail lineListed).2] = [] := by decide +kernel
    rw [e1, e2, e3, e4]
    simp
  · have h1 : ∀ l ∈ optHead "# DNest options for continuum-line time lag analysis", FitsLine l := by decide +kernel
    have h2 : ∀ l ∈ (optTail lineListed).1, FitsLine l := by decide +kernel
    intro l hl
    rw [List.mem_append, List.mem_append, List.mem_append] at hl
    rcases hl with ((hl | hl) | hl) | hl
    · exact h1 l hl
    · exact fits_lineSettings h l hl
    · simp only [List.mem_cons, List.not_mem_nil, or_false, or_self] at hl
      subst hl; simp
    · exact h2 l hl
  · decide +kernel

theorem lineEntries_ok (o : SampOpts) : ∃ st, entLoop optTags [] (lineEntries o) = .ok st := by
  rw [entLoop_nil_ok optTags_nodup]
  have e : (lineEntries o).map Prod.fst = ["MaxNumberSaves".toList, "PTol".toList, "NumberParticles".toList,
    "NewLevelIntervalFactor".toList, "SaveIntervalFactor".toList, "ThreadStepsFactor".toList,
    "MaxNumberLevels".toList, "BacktrackingLength".toList, "StrengthEqualPush".toList] := rfl
  rw [e]
  refine ⟨?_, by decide +kernel⟩
  intro p hp
  have : p.1 ∈ (lineEntries o).map Prod.fst := List.mem_map_of_mem hp
  rw [e] at this
  revert this
  generalize p.1 = q
  revert q
  decide +kernel

theorem toU32_int {z : ℤ} (h0 : 0 ≤ z) (h : z < 2 ^ 31) : toU32 (z : ℝ) = .ok z.toNat := by
  obtain ⟨n, rfl⟩ := Int.eq_ofNat_of_zero_le h0
  unfold toU32
  have hn : n < 2 ^ 31 := by exact_mod_cast h
  rw [if_pos]
  · simp
  · constructor
    · have : (0 : ℝ) ≤ (n : ℝ) := Nat.cast_nonneg n
      push_cast; linarith
    · have : (n : ℝ) < 2147483648 := by exact_mod_cast hn
      push_cast; linarith

theorem toU32_neg {z : ℤ} (h0 : z < 0) : toU32 (z : ℝ) = .ub := by
  unfold toU32
  rw [if_neg]
  rintro ⟨h, -⟩
  have : (z : ℝ) ≤ ((-1 : ℤ) : ℝ) := Int.cast_le.2 (by omega)
  push_cast at this
  linarith

end Mica
