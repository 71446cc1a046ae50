import Verif.Props.Nested
import Verif.Props.Reach

/-! C136, the prior: a vector in the prior of a model with freely ordered lags has, in the prior of the model with one
component more, a vector with the same likelihood. -/

namespace Mica

namespace LineCfg
variable (c : LineCfg)

/-- The configuration with one component more. -/
def oneMore : LineCfg := { c with ng := c.ng + 1 }

/-- Half of an amplitude as stored: of the amplitude itself with negative responses allowed, else of its logarithm. -/
noncomputable def halved (x : ℝ) : ℝ := if c.negResp then x / 2 else x - Real.log 2

/-- The vector of the larger model with the last component of every line split into two halves. -/
noncomputable def doubled (pm : ℕ → ℝ) (n : ℕ) : ℝ :=
  if n < c.numVar then pm n
  else
    let b := (n - c.numVar) / (c.blk + 3)
    let q := (n - c.numVar) % (c.blk + 3)
    if q = 0 then pm (c.blk * b + c.numVar)
    else
      let k := (q - 1) / 3
      let t := (q - 1) % 3
      let x := pm (c.blk * b + c.numVar + (1 + 3 * min k (c.ng - 1) + t))
      if t = 0 ∧ c.ng ≤ k + 1 then c.halved x else x

theorem oneMore_blk : c.oneMore.blk = c.blk + 3 := by
  show 1 + 3 * (c.ng + 1) = 1 + 3 * c.ng + 3
  omega

theorem doubled_var (pm : ℕ → ℝ) {n : ℕ} (h : n < c.numVar) : c.doubled pm n = pm n := by
  unfold doubled; rw [if_pos h]

theorem doubled_err (pm : ℕ → ℝ) (b : ℕ) :
    c.doubled pm ((c.blk + 3) * b + c.numVar) = pm (c.blk * b + c.numVar) := by
  unfold doubled
  rw [if_neg (by omega)]
  simp

theorem doubled_comp (pm : ℕ → ℝ) (b k t : ℕ) (hk : k < c.ng + 1) (ht : t < 3) :
    c.doubled pm ((c.blk + 3) * b + c.numVar + (1 + 3 * k + t)) =
      if t = 0 ∧ c.ng ≤ k + 1 then c.halved (pm (c.blk * b + c.numVar + (1 + 3 * min k (c.ng - 1) + t)))
      else pm (c.blk * b + c.numVar + (1 + 3 * min k (c.ng - 1) + t)) := by
  have hq : 1 + 3 * k + t < c.blk + 3 := by unfold blk; omega
  have e : (c.blk + 3) * b + c.numVar + (1 + 3 * k + t) - c.numVar = (c.blk + 3) * b + (1 + 3 * k + t) := by omega
  have h1 : ((c.blk + 3) * b + (1 + 3 * k + t)) / (c.blk + 3) = b := by
    rw [Nat.mul_add_div (by omega), Nat.div_eq_of_lt hq, Nat.add_zero]
  have h2 : ((c.blk + 3) * b + (1 + 3 * k + t)) % (c.blk + 3) = 1 + 3 * k + t := by
    rw [Nat.mul_add_mod, Nat.mod_eq_of_lt hq]
  unfold doubled
  rw [if_neg (by omega)]
  simp only [e, h1, h2]
  rw [if_neg (by omega), show (1 + 3 * k + t - 1) / 3 = k by omega, show (1 + 3 * k + t - 1) % 3 = t by omega]

theorem fix_con (hs : c.conSys = false) {t : ℕ} (h : 3 * t < c.numVar) : c.fix (3 * t) ≠ none := by
  unfold fix
  rw [Ne, applyFix_none]
  push Not
  refine ⟨Real.log 1, ?_⟩
  obtain ⟨m, hm⟩ := c.numVar_mod
  unfold fixWrites
  simp only [List.append_assoc]
  refine List.mem_append_left _ ?_
  rw [if_neg (by simp [hs]), List.mem_map]
  exact ⟨t, List.mem_range.2 (by omega), rfl⟩

theorem fix_sys (hs : c.lineSys = false) {b : ℕ} (h : b < c.nblocks) : c.fix (c.blk * b + c.numVar) ≠ none := by
  unfold fix
  rw [Ne, applyFix_none]
  push Not
  refine ⟨Real.log 1, ?_⟩
  unfold fixWrites
  simp only [List.append_assoc]
  refine List.mem_append_right _ (List.mem_append_left _ ?_)
  rw [if_neg (by simp [hs]), List.mem_map]
  exact ⟨b, List.mem_range.2 (by rwa [numLine_div]), rfl⟩

/-- With freely ordered lags: what is fixed. -/
theorem fix_free (ht : c.typeLag = 0) (ho : c.SharedOk) {a : ℕ} {v : ℝ} (h : c.fix a = some v) :
    (c.conSys = false ∧ v = 0 ∧ ∃ t, a = 3 * t ∧ a < c.numVar) ∨
    (c.lineSys = false ∧ v = 0 ∧ ∃ b < c.nblocks, a = c.blk * b + c.numVar) ∨
    (c.uniTf = 2 ∧ ∃ i j k t, 1 ≤ i ∧ j < c.nl.getD i 0 ∧ k < c.ng ∧ (t = 1 ∨ t = 2) ∧
      a = c.blk * c.bno i j + c.numVar + (1 + 3 * k + t)) := by
  rcases c.fix_cases h with h | h | h | h | h
  · exact Or.inl h
  · exact Or.inr (Or.inl h)
  · omega
  · omega
  · obtain ⟨hu, -, s, hs⟩ := h
    obtain ⟨i, j, k, t, hi, hj, -, hk, ht, e, -⟩ := c.shared_spec hu ho hs
    exact Or.inr (Or.inr ⟨hu, i, j, k, t, hi, hj, hk, ht, e⟩)

theorem fix_none_of {a : ℕ} (h : ∀ v, c.fix a ≠ some v) : c.fix a = none := by
  cases e : c.fix a with
  | none => rfl
  | some v => exact absurd e (h v)

theorem not_shared_var (ho : c.SharedOk) {a : ℕ} (h : a < c.numVar) (hu : c.uniTf = 2) : ∀ p ∈ c.shared, p.1 ≠ a := by
  rintro ⟨p, s⟩ hp rfl
  obtain ⟨i, j, k, t, -, -, -, -, -, e, -⟩ := c.shared_spec hu ho hp
  simp only at h
  omega

theorem not_shared_err (ho : c.SharedOk) (b : ℕ) (hu : c.uniTf = 2) :
    ∀ p ∈ c.shared, p.1 ≠ c.blk * b + c.numVar := by
  rintro ⟨p, s⟩ hp e
  obtain ⟨i, j, k, t, -, -, -, hk, ht, e', -⟩ := c.shared_spec hu ho hp
  simp only at e
  have := block_addr_inj (B := c.blk) (b := c.bno i j) (b' := b) (q := 1 + 3 * k + t) (q' := 0)
    (by unfold blk; omega) c.blk_pos (by omega)
  omega

/-- The systematic error of the continuum. -/
theorem Inv.var_zero {c : LineCfg} {pm : ℕ → ℝ} (h : c.Inv pm) (ht : c.typeLag = 0) (ho : c.SharedOk)
    (hs : c.conSys = false) {t : ℕ} (hv : 3 * t < c.numVar) : pm (3 * t) = 0 := by
  obtain ⟨v, e⟩ := Option.ne_none_iff_exists'.1 (c.fix_con hs hv)
  rw [h.fixed _ v (by unfold numParams; omega) e (c.not_shared_var ho hv)]
  rcases c.fix_free ht ho e with h | h | h
  · exact h.2.1
  · exact h.2.1
  · obtain ⟨-, i, j, k, t', -, -, -, -, e⟩ := h; omega

/-- The systematic error of a line. -/
theorem Inv.sys_zero {c : LineCfg} {pm : ℕ → ℝ} (h : c.Inv pm) (ht : c.typeLag = 0) (ho : c.SharedOk)
    (hs : c.lineSys = false) {b : ℕ} (hb : b < c.nblocks) : pm (c.blk * b + c.numVar) = 0 := by
  obtain ⟨v, e⟩ := Option.ne_none_iff_exists'.1 (c.fix_sys hs hb)
  have hl := c.addr_lt hb c.blk_pos
  rw [Nat.add_zero] at hl
  rw [h.fixed _ v hl e (c.not_shared_err ho b)]
  rcases c.fix_free ht ho e with h | h | h
  · exact h.2.1
  · exact h.2.1
  · obtain ⟨-, i, j, k, t', -, -, hk, ht', e⟩ := h
    have := block_addr_inj (B := c.blk) (b := b) (b' := c.bno i j) (q := 0) (q' := 1 + 3 * k + t')
      c.blk_pos (by unfold blk; omega) (by omega)
    omega

/-- Lags and widths of a vector in the prior are within their ranges, copied or not. -/
theorem Inv.comp_range {c : LineCfg} {pm : ℕ → ℝ} (h : c.Inv pm) (ht : c.typeLag = 0) (ho : c.SharedOk)
    {b k t : ℕ} (hb : b < c.nblocks) (hk : k < c.ng) (h3 : t < 3) :
    let r := [c.ampWindow k, c.lagWindow k, c.widthWindow k].getD t (0, 0)
    r.1 ≤ pm (c.blk * b + c.numVar + (1 + 3 * k + t)) ∧ pm (c.blk * b + c.numVar + (1 + 3 * k + t)) ≤ r.2 := by
  intro r
  have key : ∀ b < c.nblocks, c.fix (c.blk * b + c.numVar + (1 + 3 * k + t)) = none →
      r.1 ≤ pm (c.blk * b + c.numVar + (1 + 3 * k + t)) ∧ pm (c.blk * b + c.numVar + (1 + 3 * k + t)) ≤ r.2 := by
    intro b hb hf
    have := h.range _ (c.addr_lt hb (by unfold blk; omega)) hf
    rwa [c.rng_comp b k t hb hk h3] at this
  cases e : c.fix (c.blk * b + c.numVar + (1 + 3 * k + t)) with
  | none => exact key b hb e
  | some v =>
    rcases c.fix_free ht ho e with h' | h' | h'
    · obtain ⟨-, -, t', h1, h2⟩ := h'; omega
    · obtain ⟨-, -, b', -, e⟩ := h'
      have := block_addr_inj (B := c.blk) (b := b) (b' := b') (q := 1 + 3 * k + t) (q' := 0)
        (by unfold blk; omega) c.blk_pos (by omega)
      omega
    · obtain ⟨hu, i, j, k', t', hi, hj, hk', ht', e⟩ := h'
      have := block_addr_inj (B := c.blk) (b := b) (b' := c.bno i j) (q := 1 + 3 * k + t) (q' := 1 + 3 * k' + t')
        (by unfold blk; omega) (by unfold blk; omega) (by omega)
      obtain ⟨rfl, h2⟩ := this
      obtain ⟨rfl, rfl⟩ : k = k' ∧ t = t' := by omega
      have hm := c.shared_mk hu ho hi hj hk ht'
      have hj0 : j < c.nl.getD 0 0 := lt_of_lt_of_le hj (ho hu i)
      rw [h.copy hu _ hm]
      refine key _ (c.bno_lt 0 j hj0) (c.fix_none_of fun w hw => ?_)
      rcases c.fix_free ht ho hw with h' | h' | h'
      · obtain ⟨-, -, t', h1, h2⟩ := h'; omega
      · obtain ⟨-, -, b', -, e⟩ := h'
        have := block_addr_inj (B := c.blk) (b := c.bno 0 j) (b' := b') (q := 1 + 3 * k + t) (q' := 0)
          (by unfold blk; omega) c.blk_pos (by omega)
        omega
      · obtain ⟨-, i', j', k', t', hi', hj', hk', ht'', e⟩ := h'
        have := block_addr_inj (B := c.blk) (b := c.bno 0 j) (b' := c.bno i' j') (q := 1 + 3 * k + t)
          (q' := 1 + 3 * k' + t') (by unfold blk; omega) (by unfold blk; omega) (by omega)
        have := (c.bno_inj hj0 hj' this.1).2 (by omega)
        omega

theorem lagWindow_free (ht : c.typeLag = 0) (hn : 0 < c.ng) (k : ℕ) (hk : k < c.ng) : c.lagWindow k = c.lagRange := by
  by_cases ho : c.ordered
  · exact c.ordered_window ho k
  · have h1 : c.ng = 1 := by
      unfold ordered at ho
      rw [decide_eq_true_eq, not_and] at ho
      have := ho ht
      omega
    have hk : k = 0 := by omega
    subst hk
    unfold lagWindow
    rw [if_neg (by omega), if_neg ho, h1]
    simp

/-- The split vector is in the prior of the larger model. -/
theorem doubled_inv {pm : ℕ → ℝ} (hn : 0 < c.ng) (ht : c.typeLag = 0) (hp : c.ratioPrior = none)
    (hw : c.widthPrior = none) (ho : c.SharedOk) (h : c.Inv pm)
    (ha : c.negResp = false → ∀ b < c.nblocks,
      Real.log (1 / 10 ^ 5) + Real.log 2 ≤ pm (c.blk * b + c.numVar + (1 + 3 * (c.ng - 1)))) :
    c.oneMore.Inv (c.doubled pm) := by
  have hB := c.oneMore_blk
  have hNV : c.oneMore.numVar = c.numVar := rfl
  have hNB : c.oneMore.nblocks = c.nblocks := rfl
  have ht' : c.oneMore.typeLag = 0 := ht
  have ho' : c.oneMore.SharedOk := ho
  have hL : c.oneMore.lagRange = c.lagRange := rfl
  have hlag : ∀ k, c.oneMore.lagWindow k = c.lagRange := fun k => by
    have : c.oneMore.ordered = true := by
      unfold ordered
      rw [decide_eq_true_eq]
      exact ⟨ht, show 1 < c.ng + 1 by omega⟩
    rw [← hL]
    exact c.oneMore.ordered_window this k
  have hwid : ∀ k, c.oneMore.widthWindow k = c.widthRange := fun k => by
    unfold widthWindow
    rw [show c.oneMore.widthPrior = none from hw]
    simp only
    rw [if_neg (by omega)]
    rfl
  have hwid0 : ∀ k, c.widthWindow k = c.widthRange := fun k => by
    unfold widthWindow
    rw [hw]
    simp only
    rw [if_neg (by omega)]
  have hamp : ∀ k, c.oneMore.ampWindow k = c.ampRange := fun k => by
    unfold ampWindow
    rw [show c.oneMore.ratioPrior = none from hp]
    rfl
  have hamp0 : ∀ k, c.ampWindow k = c.ampRange := fun k => by
    unfold ampWindow
    rw [hp]
  have hk : ∀ k, min k (c.ng - 1) < c.ng := fun k => by omega
  constructor
  · intro i hi hf
    by_cases hv : i < c.numVar
    · rw [c.doubled_var pm hv]
      have e : c.oneMore.rng i = c.rng i := by
        obtain ⟨t, q, hq, rfl⟩ : ∃ t q, q < 3 ∧ i = 3 * t + q := ⟨i / 3, i % 3, by omega, by omega⟩
        rw [c.rng_var t q hq hv, c.oneMore.rng_var t q hq hv]
        rfl
      rw [e]
      refine h.range i (by unfold numParams; omega) (c.fix_none_of fun v hv' => ?_)
      rcases c.fix_free ht ho hv' with h' | h' | h'
      · obtain ⟨hs, -, t, rfl, -⟩ := h'
        exact c.oneMore.fix_con hs hv hf
      · obtain ⟨-, -, b, -, e⟩ := h'; omega
      · obtain ⟨-, i', j, k, t', -, -, -, -, e⟩ := h'; omega
    · obtain ⟨b, q, hb, hq, rfl⟩ := c.oneMore.addr_split (by rw [hNV]; omega) hi
      rcases c.oneMore.offset_cases hq with rfl | ⟨k, t, hkk, h3, rfl⟩
      · rw [Nat.add_zero] at hf ⊢
        rw [c.oneMore.rng_err b hb, hB, hNV, c.doubled_err, ← c.rng_err b hb]
        have hl := c.addr_lt hb c.blk_pos
        rw [Nat.add_zero] at hl
        refine h.range _ hl (c.fix_none_of fun v hv' => ?_)
        rcases c.fix_free ht ho hv' with h' | h' | h'
        · obtain ⟨hs, -, t, e, h4⟩ := h'; omega
        · exact c.oneMore.fix_sys h'.1 hb hf
        · obtain ⟨-, i, j, k, t', -, -, hk, ht', e⟩ := h'
          have := block_addr_inj (B := c.blk) (b := b) (b' := c.bno i j) (q := 0) (q' := 1 + 3 * k + t')
            c.blk_pos (by unfold blk; omega) (by omega)
          omega
      · have hr := h.comp_range ht ho hb (hk k) h3
        rw [c.oneMore.rng_comp b k t hb hkk h3, hB, hNV, c.doubled_comp pm b k t hkk h3, hamp, hlag, hwid]
        rw [hamp0, c.lagWindow_free ht hn _ (hk k), hwid0] at hr
        split
        · rename_i h0
          obtain ⟨rfl, h0⟩ := h0
          rw [min_eq_right (by omega)] at hr ⊢
          simp only [List.getD_cons_zero, Nat.add_zero] at hr ⊢
          unfold halved
          unfold ampRange at hr ⊢
          cases hneg : c.negResp with
          | true =>
            simp only [hneg, if_true] at hr ⊢
            constructor <;> linarith [hr.1, hr.2]
          | false =>
            simp only [hneg] at hr ⊢
            have := ha hneg b hb
            have h2 : 0 < Real.log 2 := Real.log_pos (by norm_num)
            simp only [Bool.false_eq_true, if_false] at hr ⊢
            constructor <;> linarith [hr.1, hr.2]
        · exact hr
  · intro i v hi hf hsh
    rcases c.oneMore.fix_free ht' ho' hf with h' | h' | h'
    · obtain ⟨hs, rfl, t, rfl, hv⟩ := h'
      rw [c.doubled_var pm hv]
      exact h.var_zero ht ho hs hv
    · obtain ⟨hs, rfl, b, hb, rfl⟩ := h'
      rw [hB, hNV, c.doubled_err]
      exact h.sys_zero ht ho hs hb
    · obtain ⟨hu, i', j, k, t, hi', hj, hkk, h3, rfl⟩ := h'
      exact absurd rfl (hsh hu _ (c.oneMore.shared_mk hu ho' hi' hj hkk h3))
  · rintro hu ⟨a, s⟩ hp
    obtain ⟨i, j, k, t, hi, hj, hj0, hkk, h3, rfl, rfl⟩ := c.oneMore.shared_spec hu ho' hp
    simp only
    have hb : ∀ i j, c.oneMore.bno i j = c.bno i j := fun _ _ => rfl
    rw [hB, hNV, hb, hb, c.doubled_comp pm _ k t hkk (by omega), c.doubled_comp pm _ k t hkk (by omega),
      if_neg (by omega), if_neg (by omega)]
    exact h.copy hu _ (c.shared_mk hu ho hi hj (hk k) h3)
  · intro _ b hb
    have hc : ∀ k < c.ng + 1, c.doubled pm (c.oneMore.cen b k) = pm (c.cen b (min k (c.ng - 1))) := by
      intro k hkk
      unfold cen
      rw [hB, hNV, c.doubled_comp pm b k 1 hkk (by omega), if_neg (by omega)]
    refine ⟨fun k hkk => ?_, fun k hkk => ?_⟩
    · rw [hc k hkk, hL]
      have hr := h.comp_range (t := 1) ht ho hb (hk k) (by omega)
      rw [c.lagWindow_free ht hn _ (hk k)] at hr
      exact hr
    · have hkk : k + 1 < c.ng + 1 := hkk
      rw [hc k (by omega), hc (k + 1) hkk]
      by_cases hl : k + 1 < c.ng
      · rw [min_eq_left (by omega), min_eq_left (by omega)]
        refine (h.order ?_ b hb).2 k hl
        unfold ordered
        rw [decide_eq_true_eq]
        exact ⟨ht, by omega⟩
      · rw [min_eq_right (by omega), min_eq_right (by omega)]

theorem two_halves (x : ℝ) :
    (if c.negResp then c.halved x else Real.exp (c.halved x)) + (if c.negResp then c.halved x else Real.exp (c.halved x)) =
      if c.negResp then x else Real.exp x := by
  unfold halved
  cases c.negResp with
  | true => simp
  | false =>
    simp only [Bool.false_eq_true, if_false]
    rw [Real.exp_sub, Real.exp_log (by norm_num)]
    ring

/-- The split vector contains the original one. -/
theorem doubled_contained (pm : ℕ → ℝ) (hn : 0 < c.ng) (T : TF) (i : ℕ) (hi : i < c.nl.length) :
    Contained c.negResp c.ng c.oneMore.ng (c.nl.getD i 0) (fun _ => T) (fun _ => T) pm (c.doubled pm) (c.idxCon i)
      (c.oneMore.idxCon i) (c.idxLine i) (c.oneMore.idxLine i) (fun _ k => some (min k (c.ng - 1))) := by
  have hB := c.oneMore_blk
  have hNV : c.oneMore.numVar = c.numVar := rfl
  have hx : ∀ j < c.nl.getD i 0, c.oneMore.idxLine i j = (c.blk + 3) * c.bno i j + c.numVar := by
    intro j hj
    rw [c.oneMore.idxLine_eq i j hj, hB]
    rfl
  have hamp : ∀ j < c.nl.getD i 0, ∀ k < c.ng + 1, ampAt c.negResp (c.doubled pm) (c.oneMore.idxLine i j) k =
      if c.ng ≤ k + 1 then (if c.negResp then c.halved (pm (c.idxLine i j + 1 + 3 * (c.ng - 1)))
        else Real.exp (c.halved (pm (c.idxLine i j + 1 + 3 * (c.ng - 1)))))
      else ampAt c.negResp pm (c.idxLine i j) k := by
    intro j hj k hk
    have := c.doubled_comp pm (c.bno i j) k 0 hk (by omega)
    rw [← hx j hj, ← c.idxLine_eq i j hj] at this
    have e : c.doubled pm (c.oneMore.idxLine i j + 1 + 3 * k) = if c.ng ≤ k + 1 then
        c.halved (pm (c.idxLine i j + 1 + 3 * (c.ng - 1))) else pm (c.idxLine i j + 1 + 3 * k) := by
      rw [show c.oneMore.idxLine i j + 1 + 3 * k = c.oneMore.idxLine i j + (1 + 3 * k + 0) by omega, this]
      by_cases hl : c.ng ≤ k + 1
      · rw [if_pos (show 0 = 0 ∧ c.ng ≤ k + 1 from ⟨rfl, hl⟩), if_pos hl, min_eq_right (by omega), Nat.add_zero,
          Nat.add_assoc]
      · rw [if_neg (fun h : 0 = 0 ∧ c.ng ≤ k + 1 => hl h.2), if_neg hl, min_eq_left (by omega), Nat.add_zero,
          Nat.add_assoc]
    unfold ampAt
    rw [e]
    by_cases hl : c.ng ≤ k + 1
    · simp only [hl, if_true]
    · simp only [hl, if_false]
  constructor
  · intro r hr
    refine c.doubled_var pm ?_
    show c.idxCon i + r < c.numVar
    unfold idxCon numVar
    split <;> omega
  · intro j hj
    rw [hx j hj, c.idxLine_eq i j hj, c.doubled_err]
  · intro j hj k' hk' h
    cases h
  · intro j hj k' hk' k h
    rw [Option.some.injEq] at h
    subst h
    refine ⟨by omega, rfl, ?_, ?_⟩
    · have := c.doubled_comp pm (c.bno i j) k' 1 hk' (by omega)
      rw [if_neg (by omega), ← hx j hj, ← c.idxLine_eq i j hj] at this
      simpa only [Nat.add_assoc] using this
    · have := c.doubled_comp pm (c.bno i j) k' 2 hk' (by omega)
      rw [if_neg (by omega), ← hx j hj, ← c.idxLine_eq i j hj] at this
      simpa only [Nat.add_assoc] using this
  · intro j hj k hk
    rw [show c.oneMore.ng = c.ng + 1 from rfl]
    by_cases hl : k + 1 < c.ng
    · have : (Finset.range (c.ng + 1)).filter (fun k' => some (min k' (c.ng - 1)) = some k) = {k} := by
        ext x
        simp only [Finset.mem_filter, Finset.mem_range, Option.some.injEq, Finset.mem_singleton]
        omega
      rw [this, Finset.sum_singleton, hamp j hj k (by omega), if_neg (by omega)]
    · have : (Finset.range (c.ng + 1)).filter (fun k' => some (min k' (c.ng - 1)) = some k) = {c.ng - 1, c.ng} := by
        ext x
        simp only [Finset.mem_filter, Finset.mem_range, Option.some.injEq, Finset.mem_insert, Finset.mem_singleton]
        omega
      rw [this, Finset.sum_pair (by omega), hamp j hj _ (by omega), hamp j hj _ (by omega),
        if_pos (show c.ng ≤ c.ng - 1 + 1 by omega), if_pos (show c.ng ≤ c.ng + 1 by omega), c.two_halves, show k = c.ng - 1 by omega]
      rfl

end LineCfg

/-- C136, priors: with freely ordered lags (`type_lag_prior` 0) every vector in the prior of a model with at least one
component has a vector in the prior of the model with one component more at which all the likelihoods are the same,
provided the amplitude of the last component is not within a factor two of its lower limit (no condition with negative
responses allowed).  Any sharing of transfer functions among the data sets, any fixed systematic errors. -/
theorem C136_prior (c : LineCfg) (pm : ℕ → ℝ) (hn : 0 < c.ng) (ht : c.typeLag = 0) (hp : c.ratioPrior = none)
    (hw : c.widthPrior = none) (ho : c.SharedOk) (h : c.Inv pm)
    (ha : c.negResp = false → ∀ b < c.nblocks,
      Real.log (1 / 10 ^ 5) + Real.log 2 ≤ pm (c.blk * b + c.numVar + (1 + 3 * (c.ng - 1)))) :
    ∃ pm', ({ c with ng := c.ng + 1 } : LineCfg).Inv pm' ∧
      ∀ (T : TF) (nq : ℕ) (mem mem' : ℕ → ℝ) (ds : List DSet), ds.map (fun d => d.line.length) = c.nl →
        let e := tfEnv nq c.ng c.negResp (fun _ => T) pm c.idxCon c.idxLine mem
        let e' := tfEnv nq (c.ng + 1) c.negResp (fun _ => T) pm' (LineCfg.idxCon { c with ng := c.ng + 1 })
          (LineCfg.idxLine { c with ng := c.ng + 1 }) mem'
        probLine1 e' ds = probLine1 e ds ∧ probLine2 e' ds = probLine2 e ds ∧ probLine3 e' ds = probLine3 e ds ∧
          probLine4 e' ds = probLine4 e ds := by
  refine ⟨c.doubled pm, c.doubled_inv hn ht hp hw ho h ha, fun T nq mem mem' ds hd => ?_⟩
  refine C136_likelihood nq c.ng (c.ng + 1) c.negResp (fun _ => T) (fun _ => T) pm (c.doubled pm) c.idxCon
    c.oneMore.idxCon c.idxLine c.oneMore.idxLine mem mem' ds (fun _ _ k => some (min k (c.ng - 1))) fun i d hi => ?_
  have hl : i < ds.length := (List.getElem?_eq_some_iff.1 hi).1
  have e : c.nl.getD i 0 = d.line.length := by
    rw [← hd, List.getD_eq_getElem?_getD, List.getElem?_map, hi]
    rfl
  have := c.doubled_contained pm hn T i (by rw [← hd]; simpa using hl)
  rw [e] at this
  exact this

example : 0 < reachCfg.ng ∧ reachCfg.typeLag = 0 ∧ reachCfg.ratioPrior = none ∧ reachCfg.widthPrior = none ∧
    reachCfg.SharedOk ∧ reachCfg.Inv (extendVec (reachVec 10 20)) ∧ (reachCfg.negResp = false → ∀ b < reachCfg.nblocks,
      Real.log (1 / 10 ^ 5) + Real.log 2 ≤ extendVec (reachVec 10 20)
        (reachCfg.blk * b + reachCfg.numVar + (1 + 3 * (reachCfg.ng - 1)))) := by
  refine ⟨by simp [reachCfg], rfl, rfl, rfl, fun h => by simp [reachCfg] at h,
    reachCfg_inv 10 20 (by norm_num) (by norm_num) (by norm_num), fun _ b hb => ?_⟩
  have hnb : reachCfg.nblocks = 1 := by simp [LineCfg.nblocks, reachCfg]
  obtain rfl : b = 0 := by omega
  have e : reachCfg.blk * 0 + reachCfg.numVar + (1 + 3 * (reachCfg.ng - 1)) = 7 := by
    simp [LineCfg.numVar, reachCfg]
  rw [e, ← Real.log_mul (by norm_num) (by norm_num)]
  have : extendVec (reachVec 10 20) 7 = 0 := by
    unfold extendVec reachVec
    rw [dif_pos (by norm_num)]
    simp [Fin.ext_iff]
  rw [this]
  exact Real.log_nonpos (by norm_num) (by norm_num)

end Mica
