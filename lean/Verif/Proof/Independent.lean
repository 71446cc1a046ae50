import Verif.Spec.Independent
import Verif.Proof.InitLaw
import Verif.Proof.Invariance10

/-!
# Helper lemmas for C126: parameters of the parts of a joint run
-/

open MeasureTheory Set
open scoped ENNReal

namespace Mica

namespace LineCfg
variable (c : LineCfg) (m : ℕ)

/-- Nothing is shared between data sets. -/
structure Separate : Prop where
  var : c.uniVar = false
  tf : c.uniTf = 0

variable {c m}

theorem Separate.first (h : c.Separate) : (c.firstSets m).Separate := ⟨h.1, h.2⟩
theorem Separate.last (h : c.Separate) : (c.lastSets m).Separate := ⟨h.1, h.2⟩

theorem Separate.numVar (h : c.Separate) : c.numVar = 3 * c.nl.length := by
  unfold LineCfg.numVar; rw [h.var]; simp

theorem Separate.nblocks (h : c.Separate) : c.nblocks = c.nl.sum := by
  unfold LineCfg.nblocks; rw [h.tf]; simp

theorem Separate.numParams (h : c.Separate) : c.numParams = 3 * c.nl.length + c.blk * c.nl.sum := by
  rw [LineCfg.numParams, numLine_eq, h.numVar, h.nblocks]

theorem first_length (hm : m ≤ c.nl.length) : (c.firstSets m).nl.length = m := by
  simp [firstSets, hm]

theorem last_length : (c.lastSets m).nl.length = c.nl.length - m := by
  simp [lastSets]

theorem sum_split : c.nl.sum = (c.nl.take m).sum + (c.nl.drop m).sum := by
  rw [← List.sum_append, List.take_append_drop]

theorem mul_split : c.blk * c.nl.sum = c.blk * (c.nl.take m).sum + c.blk * (c.nl.drop m).sum := by
  rw [sum_split (m := m), Nat.mul_add]

theorem Separate.first_num (h : c.Separate) (hm : m ≤ c.nl.length) :
    (c.firstSets m).numParams = 3 * m + c.blk * (c.nl.take m).sum := by
  rw [h.first.numParams, first_length hm]; rfl

theorem Separate.last_num (h : c.Separate) :
    (c.lastSets m).numParams = 3 * (c.nl.length - m) + c.blk * (c.nl.drop m).sum := by
  rw [h.last.numParams, last_length]; rfl

theorem Separate.first_lt (h : c.Separate) (hm : m ≤ c.nl.length) {i : ℕ} (hi : i < (c.firstSets m).numParams) :
    c.placeFirst m i < c.numParams := by
  rw [h.first_num hm] at hi
  rw [h.numParams, mul_split (m := m)]
  unfold placeFirst
  split <;> omega

theorem Separate.last_lt (h : c.Separate) (hm : m ≤ c.nl.length) {i : ℕ} (hi : i < (c.lastSets m).numParams) :
    c.placeLast m i < c.numParams := by
  rw [h.last_num] at hi
  rw [h.numParams, mul_split (m := m)]
  unfold placeLast
  rw [show (1 + 3 * c.ng) = c.blk from rfl]
  split <;> omega

/-- The places of the parameters of the two parts. -/
noncomputable def Separate.places (h : c.Separate) (hm : m ≤ c.nl.length) :
    Fin (c.firstSets m).numParams ⊕ Fin (c.lastSets m).numParams → Fin c.numParams :=
  Sum.elim (fun i => ⟨c.placeFirst m i, h.first_lt hm i.2⟩) (fun i => ⟨c.placeLast m i, h.last_lt hm i.2⟩)

theorem Separate.places_bij (h : c.Separate) (hm : m ≤ c.nl.length) : Function.Bijective (h.places hm) := by
  rw [Fintype.bijective_iff_injective_and_card]
  constructor
  · have e1 := h.first_num hm
    have e2 := h.last_num (m := m)
    have hb : (1 + 3 * c.ng) = c.blk := rfl
    rintro (⟨i, hi⟩ | ⟨i, hi⟩) (⟨j, hj⟩ | ⟨j, hj⟩) hij <;>
      simp only [Separate.places, Sum.elim_inl, Sum.elim_inr, Fin.mk.injEq, placeFirst, placeLast, hb] at hij
    · have : i = j := by split_ifs at hij <;> omega
      subst this; rfl
    · exfalso; split_ifs at hij <;> omega
    · exfalso; split_ifs at hij <;> omega
    · have : i = j := by split_ifs at hij <;> omega
      subst this; rfl
  · simp only [Fintype.card_sum, Fintype.card_fin, h.first_num hm, h.last_num, h.numParams]
    rw [mul_split (m := m)]; omega

noncomputable def Separate.equiv (h : c.Separate) (hm : m ≤ c.nl.length) :
    Fin (c.firstSets m).numParams ⊕ Fin (c.lastSets m).numParams ≃ Fin c.numParams :=
  Equiv.ofBijective _ (h.places_bij hm)

/-! ### Ranges and fixed parameters -/

/-- Which parameters are fixed, in terms of their place in the triple or in the block of a line. -/
def FixVar (c : LineCfg) (q : ℕ) (v : ℝ) : Prop := c.conSys = false ∧ q = 0 ∧ v = 0

@[inherit_doc FixVar] def FixLine (c : LineCfg) (q : ℕ) (v : ℝ) : Prop :=
  (c.lineSys = false ∧ q = 0 ∧ v = 0) ∨
  (2 ≤ c.typeLag ∧ c.typeLag ≤ 3 ∧ ∃ k < c.ng, q = 1 + 3 * k + 1 ∧ v = c.lagLow + k * c.dlag) ∨
  (c.typeTf = 1 ∧ c.typeLag = 3 ∧ v = Real.log (c.dlag / 2) ∧ ∃ k < c.ng, q = 1 + 3 * k + 2)

theorem fixVar_of (hs : c.Separate) {t q : ℕ} (hq : q < 3) (ht : 3 * t + q < c.numVar) {v : ℝ}
    (h : c.fix (3 * t + q) = some v) : c.FixVar q v := by
  rcases c.fix_cases h with ⟨h1, h2, t', h3, h4⟩ | ⟨_, _, b, hb, h1⟩ | ⟨_, _, b, hb, k, hk, h1, _⟩ |
    ⟨_, _, _, b, hb, k, hk, h1⟩ | ⟨h1, _⟩
  · exact ⟨h1, by omega, h2⟩
  · omega
  · unfold cen at h1; omega
  · omega
  · rw [hs.tf] at h1; omega

theorem fixLine_of (hs : c.Separate) {b q : ℕ} (hq : q < c.blk) {v : ℝ}
    (h : c.fix (c.blk * b + c.numVar + q) = some v) : c.FixLine q v := by
  rcases c.fix_cases h with ⟨_, _, t', _, h4⟩ | ⟨h0, h2, b', _, h1⟩ | ⟨h2, h3, b', _, k, hk, h1, h4⟩ |
    ⟨h2, h3, h4, b', _, k, hk, h1⟩ | ⟨h1, _⟩
  · omega
  · obtain ⟨_, e⟩ := block_addr_inj (b := b) (b' := b') (q' := 0) hq c.blk_pos (by omega)
    exact .inl ⟨h0, e, h2⟩
  · unfold cen at h1
    obtain ⟨_, e⟩ := block_addr_inj (b := b) (b' := b') (q' := 1 + 3 * k + 1) hq (by unfold blk; omega) (by omega)
    exact .inr (.inl ⟨h2, h3, k, hk, e, h4⟩)
  · obtain ⟨_, e⟩ := block_addr_inj (b := b) (b' := b') (q' := 1 + 3 * k + 2) hq (by unfold blk; omega) (by omega)
    exact .inr (.inr ⟨h2, h3, h4, k, hk, e⟩)
  · rw [hs.tf] at h1; omega

theorem some_of_mem {a : ℕ} {v : ℝ} (h : (a, v) ∈ c.fixWrites) : ∃ v', c.fix a = some v' := by
  rw [← Option.ne_none_iff_exists', LineCfg.fix, Ne, applyFix_none]
  push Not
  exact ⟨v, h⟩

theorem FixVar.unique {q : ℕ} {v w : ℝ} (h : c.FixVar q v) (h' : c.FixVar q w) : v = w := by
  rw [h.2.2, h'.2.2]

theorem FixLine.unique {q : ℕ} {v w : ℝ} (h : c.FixLine q v) (h' : c.FixLine q w) : v = w := by
  rcases h with ⟨_, a, b⟩ | ⟨_, _, k, _, a, b⟩ | ⟨_, _, b, k, _, a⟩ <;>
    rcases h' with ⟨_, a', b'⟩ | ⟨_, _, k', _, a', b'⟩ | ⟨_, _, b', k', _, a'⟩ <;> try omega
  · rw [b, b']
  · obtain rfl : k = k' := by omega
    rw [b, b']
  · rw [b, b']

theorem fixVar_iff (hs : c.Separate) {t q : ℕ} (hq : q < 3) (ht : 3 * t + q < c.numVar) (v : ℝ) :
    c.fix (3 * t + q) = some v ↔ c.FixVar q v := by
  refine ⟨fixVar_of hs hq ht, fun h => ?_⟩
  obtain ⟨v', hv'⟩ : ∃ v', c.fix (3 * t + q) = some v' := by
    refine some_of_mem (v := Real.log 1) ?_
    obtain ⟨h1, rfl, _⟩ := h
    unfold fixWrites
    simp only [List.mem_append]
    refine .inl (.inl (.inl (.inl ?_)))
    rw [h1, if_neg (by simp)]
    simp only [List.mem_map, List.mem_range]
    exact ⟨t, by obtain ⟨k, hk⟩ := c.numVar_mod; omega, rfl⟩
  rw [hv', (fixVar_of hs hq ht hv').unique h]

theorem fixLine_iff (hs : c.Separate) {b q : ℕ} (hb : b < c.nblocks) (hq : q < c.blk) (v : ℝ) :
    c.fix (c.blk * b + c.numVar + q) = some v ↔ c.FixLine q v := by
  refine ⟨fixLine_of hs hq, fun h => ?_⟩
  obtain ⟨v', hv'⟩ : ∃ v', c.fix (c.blk * b + c.numVar + q) = some v' := by
    unfold FixLine at h
    have key : ∃ w, (c.blk * b + c.numVar + q, w) ∈ c.fixWrites := by
      unfold fixWrites
      simp only [List.mem_append]
      rcases h with ⟨h1, rfl, _⟩ | ⟨h1, h2, k, hk, rfl, _⟩ | ⟨h1, h2, _, k, hk, rfl⟩
      · refine ⟨Real.log 1, .inl (.inl (.inl (.inr ?_)))⟩
        rw [h1, if_neg (by simp)]
        simp only [List.mem_map, List.mem_range, numLine_div]
        exact ⟨b, hb, rfl⟩
      · refine ⟨c.lagLow + k * c.dlag, .inl (.inl (.inr ?_))⟩
        rw [if_pos ⟨h1, h2⟩, mem_fixAll]
        exact ⟨b, hb, k, hk, rfl, rfl⟩
      · refine ⟨Real.log (c.dlag / 2), .inl (.inr ?_)⟩
        rw [if_pos ⟨h1, h2⟩, mem_fixAll]
        exact ⟨b, hb, k, hk, rfl, rfl⟩
    obtain ⟨w, hw⟩ := key
    exact some_of_mem hw
  rw [hv', (fixLine_of hs hq hv').unique h]

/-- A parameter is one of the triple of a data set or belongs to the block of a line. -/
theorem place_cases {i : ℕ} (hi : i < c.numParams) :
    (∃ t q, q < 3 ∧ i = 3 * t + q ∧ i < c.numVar) ∨
    (∃ b q, b < c.nblocks ∧ q < c.blk ∧ i = c.blk * b + c.numVar + q) := by
  by_cases h : i < c.numVar
  · exact .inl ⟨i / 3, i % 3, by omega, by omega, h⟩
  · right
    rw [LineCfg.numParams, numLine_eq] at hi
    refine ⟨(i - c.numVar) / c.blk, (i - c.numVar) % c.blk, ?_, Nat.mod_lt _ c.blk_pos, ?_⟩
    · rw [Nat.div_lt_iff_lt_mul c.blk_pos, Nat.mul_comm]; omega
    · have := Nat.div_add_mod (i - c.numVar) c.blk; omega

theorem Separate.first_same (h : c.Separate) (hm : m ≤ c.nl.length) {i : ℕ} (hi : i < (c.firstSets m).numParams) :
    c.fix (c.placeFirst m i) = (c.firstSets m).fix i ∧ c.rng (c.placeFirst m i) = (c.firstSets m).rng i := by
  have hv := h.numVar
  have hv1 := (h.first (m := m)).numVar
  rw [first_length hm] at hv1
  have hs := sum_split (c := c) (m := m)
  rcases place_cases hi with ⟨t, q, hq, rfl, ht⟩ | ⟨b, q, hb, hq, rfl⟩
  · rw [placeFirst, if_pos (by omega)]
    constructor
    · ext v
      rw [fixVar_iff h hq (by omega), fixVar_iff h.first hq ht]; rfl
    · rw [c.rng_var t q hq (by omega), (c.firstSets m).rng_var t q hq ht]; rfl
  · have hb' : b < c.nblocks := by
      rw [h.first.nblocks] at hb
      rw [h.nblocks]
      have : (c.firstSets m).nl.sum = (c.nl.take m).sum := rfl
      omega
    have hq' : q < c.blk := hq
    have e : c.placeFirst m ((c.firstSets m).blk * b + (c.firstSets m).numVar + q) = c.blk * b + c.numVar + q := by
      rw [placeFirst, if_neg (by omega), hv, hv1, show (c.firstSets m).blk = c.blk from rfl]; omega
    rw [e]
    constructor
    · ext v
      rw [fixLine_iff h hb' hq', fixLine_iff h.first hb hq]; rfl
    · rw [c.rng_line b q hb' hq', (c.firstSets m).rng_line b q hb hq]; rfl

theorem Separate.last_same (h : c.Separate) (hm : m ≤ c.nl.length) {i : ℕ} (hi : i < (c.lastSets m).numParams) :
    c.fix (c.placeLast m i) = (c.lastSets m).fix i ∧ c.rng (c.placeLast m i) = (c.lastSets m).rng i := by
  have hv := h.numVar
  have hv1 := (h.last (m := m)).numVar
  rw [last_length] at hv1
  have hs := sum_split (c := c) (m := m)
  rcases place_cases hi with ⟨t, q, hq, rfl, ht⟩ | ⟨b, q, hb, hq, rfl⟩
  · rw [placeLast, if_pos (by omega), show 3 * m + (3 * t + q) = 3 * (m + t) + q by omega]
    constructor
    · ext v
      rw [fixVar_iff h hq (by omega), fixVar_iff h.last hq ht]; rfl
    · rw [c.rng_var (m + t) q hq (by omega), (c.lastSets m).rng_var t q hq ht]
      have e : ∀ f : ℕ → ℝ, f (3 * (m + t) + q) = f (3 * m + (3 * t + q)) := fun f => by congr 1; omega
      simp only [varParRange, e]; rfl
  · have hb' : (c.nl.take m).sum + b < c.nblocks := by
      rw [h.last.nblocks] at hb
      rw [h.nblocks]
      have : (c.lastSets m).nl.sum = (c.nl.drop m).sum := rfl
      omega
    have hq' : q < c.blk := hq
    have e : c.placeLast m ((c.lastSets m).blk * b + (c.lastSets m).numVar + q) =
        c.blk * ((c.nl.take m).sum + b) + c.numVar + q := by
      rw [placeLast, if_neg (by omega), hv, hv1, show (c.lastSets m).blk = c.blk from rfl, Nat.mul_add,
        show (1 + 3 * c.ng) = c.blk from rfl]; omega
    rw [e]
    constructor
    · ext v
      rw [fixLine_iff h hb' hq', fixLine_iff h.last hb hq]; rfl
    · rw [c.rng_line _ q hb' hq', (c.lastSets m).rng_line b q hb hq]; rfl

/-! ### Lags, penalties and the density -/

theorem Separate.start_lt (h : c.Separate) {i j k t : ℕ} (hj : j < c.nl.getD i 0) (hk : k < c.ng) (ht : t ≤ 3) :
    lineStart c i j + (3 * k + t) < c.numParams := by
  have hi := lt_of_getD_lt hj
  rw [h.numParams]
  unfold lineStart
  rw [h.var, h.tf]
  simp only [Bool.false_eq_true, if_false, show (0 : ℕ) ≠ 1 by omega]
  have h1 : (c.nl.take i).sum + c.nl.getD i 0 ≤ c.nl.sum := by
    have e : c.nl.sum = (c.nl.take (i + 1)).sum + (c.nl.drop (i + 1)).sum := sum_split
    rw [List.take_add_one, List.sum_append, List.getElem?_eq_getElem hi] at e
    rw [List.getD_eq_getElem _ _ hi]
    simp at e
    omega
  have h2 : c.blk * ((c.nl.take i).sum + j + 1) ≤ c.blk * c.nl.sum := Nat.mul_le_mul_left _ (by omega)
  rw [Nat.mul_add] at h2
  rw [show (1 + 3 * c.ng) = c.blk from rfl]
  unfold blk at *
  omega

theorem first_ext (x : Fin c.numParams → ℝ) {a : ℕ}
    (ha : a < (c.firstSets m).numParams) : extendVec (partsOf c m x).1 a = extendVec x (c.placeFirst m a) := by
  rw [extendVec, dif_pos ha]; rfl

theorem last_ext (x : Fin c.numParams → ℝ) {a : ℕ}
    (ha : a < (c.lastSets m).numParams) : extendVec (partsOf c m x).2 a = extendVec x (c.placeLast m a) := by
  rw [extendVec, dif_pos ha]; rfl

end LineCfg
end Mica
