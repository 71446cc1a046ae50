import Verif.Props.LineParams
import Verif.Spec.Reversible
import Mathlib.Algebra.BigOperators.Group.Finset.Basic
import Mathlib.Algebra.BigOperators.Ring.Finset
import Mathlib.Algebra.BigOperators.Intervals

/-! # Helper lemmas: reversing a move -/

namespace Mica

/-- Folding back: the opposite step from the folded value returns to the start. -/
theorem dnestWrap_reverse (x d lo hi y : ℝ) (h1 : lo ≤ x) (h2 : x < hi)
    (h : dnestWrap (x + d) lo hi = .ok y) : dnestWrap (y - d) lo hi = .ok x := by
  obtain ⟨z, hz, _, _, k, hk⟩ := C01_wrap_range (x + d) lo hi (lt_of_le_of_lt h1 h2)
  rw [hz] at h
  simp only [Res.ok.injEq] at h
  subst h
  refine C01_wrap_unique _ lo hi x h1 h2 (-k) ?_
  push_cast
  linarith

namespace LineCfg
variable (c : LineCfg)

/-- The bounds of a move, case by case. -/
theorem bounds_cases (w : ℕ) (hw : w < c.numParams) :
    (∀ pm, c.bounds pm w = c.rng w) ∨
    (c.ordered ∧ ∃ b < c.nblocks, ∃ k < c.ng, w = c.cen b k ∧ ∀ pm, c.bounds pm w =
      (if k = 0 then (c.rng w).1 else pm (c.cen b (k - 1)),
       if k + 1 < c.ng then pm (c.cen b (k + 1)) else (c.rng w).2)) := by
  by_cases ho : c.ordered = true
  swap
  · left; intro pm; simp [bounds, ho]
  have hng : 1 < c.ng := by unfold ordered at ho; simp at ho; exact ho.2
  by_cases hv : c.numVar ≤ w
  swap
  · left; intro pm; simp [bounds, hv]
  obtain ⟨b, q, hbn, hq, rfl⟩ := c.addr_split hv hw
  have hb : ∀ pm, c.bounds pm (c.blk * b + c.numVar + q) =
      c.orderedBounds pm (c.blk * b + c.numVar + q) := fun pm => by simp [bounds, hv, ho]
  rcases c.offset_cases hq with rfl | ⟨k, t, hk, ht, rfl⟩
  · left; intro pm
    rw [hb]
    unfold orderedBounds
    rw [if_neg]
    rw [Nat.add_zero, c.role_err b]; omega
  · obtain ⟨hrole, hcomp⟩ := c.role_comp b k t hk ht
    by_cases ht1 : t = 1
    · subst ht1
      right
      refine ⟨ho, b, hbn, k, hk, rfl, fun pm => ?_⟩
      have hp : c.blk * b + c.numVar + (1 + 3 * k + 1) + 3 = c.cen b (k + 1) := by
        unfold cen; omega
      have hm : 0 < k → c.blk * b + c.numVar + (1 + 3 * k + 1) - 3 = c.cen b (k - 1) := by
        intro h; unfold cen; omega
      rw [hb]
      unfold orderedBounds
      rw [if_pos (by rw [hrole]; rfl), hcomp, hp]
      by_cases k0 : k = 0
      · subst k0
        rw [if_pos (show ((0 : ℕ) : Int) = 0 from rfl), if_pos rfl, if_pos (by omega)]
      · rw [if_neg (by exact_mod_cast k0), hm (by omega), if_neg k0]
        by_cases kl : k + 1 < c.ng
        · rw [if_pos (by omega), if_pos kl]
        · rw [if_neg (by omega), if_neg kl]
    · left; intro pm
      rw [hb]
      unfold orderedBounds
      rw [if_neg]
      rw [hrole]; exact_mod_cast ht1

/-- A free lag under shared lags belongs to the first data set. -/
theorem free_first (hs : c.SharedOk) (hu : c.uniTf = 2) {b o : ℕ} (hb : b < c.nblocks)
    (ho : ∃ k t, k < c.ng ∧ (t = 1 ∨ t = 2) ∧ o = 1 + 3 * k + t)
    (hf : c.fix (c.blk * b + c.numVar + o) = none) : ∃ j < c.nl.getD 0 0, b = c.bno 0 j := by
  obtain ⟨k, t, hk, ht, rfl⟩ := ho
  obtain ⟨i, j, hj, rfl⟩ := c.bno_surj b hb
  rcases Nat.eq_zero_or_pos i with rfl | hi
  · exact ⟨j, hj, rfl⟩
  · exact absurd hf (c.fix_shared hu (c.shared_mk hu hs hi hj hk ht))

/-- Addresses of the first data set are not targets of the copying. -/
theorem not_target (hs : c.SharedOk) {j o : ℕ} (hj : j < c.nl.getD 0 0) (ho : o < c.blk)
    (hu : c.uniTf = 2) : ∀ p ∈ c.shared, p.1 ≠ c.blk * c.bno 0 j + c.numVar + o := by
  rintro ⟨a, a'⟩ h e
  obtain ⟨i', j', k', t', hi', hj', hj0', hk', ht', h1', h2'⟩ := c.shared_spec hu hs h
  have hb := block_addr_inj (B := c.blk) (b := c.bno 0 j) (b' := c.bno i' j') (q := o)
    (q' := 1 + 3 * k' + t') ho (by unfold blk; omega) (by simp only at e; omega)
  have := (c.bno_inj hj hj' hb.1).2 (by omega)
  omega

/-- A free parameter is not a target of the copying. -/
theorem free_not_target {a : ℕ} (hf : c.fix a = none) (hu : c.uniTf = 2) :
    ∀ p ∈ c.shared, p.1 ≠ a := by
  rintro p hp rfl
  exact c.fix_shared hu hp hf

/-! ## Helper facts about the specification -/

theorem lineStart_eq (i j : ℕ) : lineStart c i j = c.blk * c.bno i j + c.numVar := by
  unfold lineStart bno numVar blk; ring_nf

theorem own_inj {i j i' j' : ℕ} (hj : j < ownLines c i) (hj' : j' < ownLines c i')
    (h : c.bno i j = c.bno i' j') : i = i' ∧ j = j' := by
  unfold ownLines at hj hj'
  by_cases h1 : c.uniTf = 1
  · simp only [h1, if_true] at hj hj'
    have hi : i + 1 = c.nl.length := by by_contra hn; simp [hn] at hj
    have hi' : i' + 1 = c.nl.length := by by_contra hn; simp [hn] at hj'
    simp only [bno, h1, if_true] at h
    omega
  · have hj2 : j < c.nl.getD i 0 := by
      simp only [h1, if_false] at hj
      split at hj
      · split at hj
        · rename_i h; rw [h]; exact hj
        · omega
      · exact hj
    have hj2' : j' < c.nl.getD i' 0 := by
      simp only [h1, if_false] at hj'
      split at hj'
      · split at hj'
        · rename_i h; rw [h]; exact hj'
        · omega
      · exact hj'
    have := c.bno_inj hj2 hj2' h
    exact ⟨this.2 h1, this.1⟩

theorem own_not_target (hs : c.SharedOk) {i j o : ℕ} (hj : j < ownLines c i) (ho : o < c.blk)
    (hu : c.uniTf = 2) : ∀ p ∈ c.shared, p.1 ≠ lineStart c i j + o := by
  unfold ownLines at hj
  rw [if_neg (by omega), if_pos hu] at hj
  have hi : i = 0 := by by_contra hn; simp [hn] at hj
  subst hi
  rw [c.lineStart_eq]
  exact c.not_target hs (by simpa using hj) ho hu

/-- Only one line and component contribute to a change of the penalties. -/
theorem penalty_change (F : ℕ → ℕ → ℕ → ℝ) (i0 j0 k0 : ℕ) (hi : i0 < c.nl.length)
    (hj : j0 < ownLines c i0) (hk : k0 < c.ng)
    (h0 : ∀ i j k, i < c.nl.length → j < ownLines c i → k < c.ng →
      ¬ (i = i0 ∧ j = j0 ∧ k = k0) → F i j k = 0) :
    ∑ i ∈ Finset.range c.nl.length, ∑ j ∈ Finset.range (ownLines c i), ∑ k ∈ Finset.range c.ng,
      F i j k = F i0 j0 k0 := by
  rw [Finset.sum_eq_single i0, Finset.sum_eq_single j0, Finset.sum_eq_single k0]
  · intro k hk hne
    exact h0 _ _ _ hi hj (by simpa using hk) (by tauto)
  · intro h; exact absurd (by simpa using hk) h
  · intro j hj' hne
    refine Finset.sum_eq_zero fun k hk => ?_
    exact h0 _ _ _ hi (by simpa using hj') (by simpa using hk) (by tauto)
  · intro h; exact absurd (by simpa using hj) h
  · intro i hi' hne
    refine Finset.sum_eq_zero fun j hj => Finset.sum_eq_zero fun k hk => ?_
    exact h0 _ _ _ (by simpa using hi') (by simpa using hj) (by simpa using hk) (by tauto)
  · intro h; exact absurd (by simpa using hi) h

theorem penalty_none (F : ℕ → ℕ → ℕ → ℝ)
    (h0 : ∀ i j k, i < c.nl.length → j < ownLines c i → k < c.ng → F i j k = 0) :
    ∑ i ∈ Finset.range c.nl.length, ∑ j ∈ Finset.range (ownLines c i), ∑ k ∈ Finset.range c.ng,
      F i j k = 0 :=
  Finset.sum_eq_zero fun i hi => Finset.sum_eq_zero fun j hj => Finset.sum_eq_zero fun k hk =>
    h0 _ _ _ (by simpa using hi) (by simpa using hj) (by simpa using hk)

theorem compPenalty_nonneg (i : ℕ) (lag lw : ℝ) : 0 ≤ compPenalty c i lag lw := by
  unfold compPenalty
  generalize (if c.typeTf = 2 then lag + Real.exp lw else lag) = L
  generalize (if c.typeTf = 0 then (3 : ℝ) else if c.typeTf = 1 then 1 else 0) = f
  dsimp only
  refine add_nonneg (by split <;> norm_num) ?_
  split
  · rename_i h
    obtain ⟨_, h, _⟩ := h
    have ha : 0 ≤ |L - 365.25 * ⌊L / 365.25⌋ - c.gapCenter i| := abs_nonneg _
    generalize |L - 365.25 * ⌊L / 365.25⌋ - c.gapCenter i| = a at *
    have hg : 0 < c.gapWidth i := lt_of_le_of_lt ha h
    have h4 : a / c.gapWidth i < 1 := (div_lt_one hg).2 h
    have h5 : 0 ≤ a / c.gapWidth i := div_nonneg ha hg.le
    nlinarith
  · exact le_rfl

/-- What the code charges is the penalty. -/
theorem compPenalty_eq (i : ℕ) (lag lw : ℝ) :
    -compPenalty c i lag lw =
      (if c.posivity then (if lag - c.widthFactor * Real.exp lw < 0 then -100 else 0) else 0) +
      (if c.gap then c.gapPenalty i lag lw else 0) := by
  have hwf : c.widthFactor = (if c.typeTf = 0 then 3 else if c.typeTf = 1 then 1 else 0) := by
    simp only [LineCfg.widthFactor]
    rcases c.typeTf with _ | _ | n <;> simp
  have hLf : lag + c.lagFactor * Real.exp lw = if c.typeTf = 2 then lag + Real.exp lw else lag := by
    unfold LineCfg.lagFactor
    rcases h : c.typeTf with _ | _ | _ | n <;> simp
  unfold compPenalty gapPenalty
  rw [hwf, hLf]
  generalize (if c.typeTf = 2 then lag + Real.exp lw else lag) = L
  simp only
  rw [mul_comm (365.25 : ℝ)]
  generalize hd : |L - ↑⌊L / 365.25⌋ * 365.25 - c.gapCenter i| = d
  generalize (if c.typeTf = 0 then (3 : ℝ) else if c.typeTf = 1 then 1 else 0) = f
  have hd0 : 0 ≤ d := hd ▸ abs_nonneg _
  have hcond : (d < c.gapWidth i ∧ Real.exp lw < c.gapWidth i) ↔
      (d < c.gapWidth i ∧ lw < Real.log (c.gapWidth i)) := by
    refine and_congr_right fun h => ?_
    rw [Real.lt_log_iff_exp_lt (lt_of_le_of_lt hd0 h)]
  rw [neg_add]
  congr 1
  · by_cases hp : c.posivity = true
    · by_cases hl : lag < f * Real.exp lw
      · rw [if_pos ⟨hp, hl⟩, if_pos hp, if_pos (by linarith)]
      · rw [if_neg (fun h => hl h.2), if_pos hp, if_neg (by intro h; exact hl (by linarith))]
        norm_num
    · rw [if_neg (fun h => hp h.1), if_neg hp]; norm_num
  · by_cases hp : c.gap = true
    · by_cases hl : d < c.gapWidth i ∧ Real.exp lw < c.gapWidth i
      · rw [if_pos ⟨hp, hl⟩, if_pos hp, if_pos (hcond.1 hl)]; ring
      · rw [if_neg (fun h => hl h.2), if_pos hp, if_neg (fun h => hl (hcond.2 h))]
        norm_num
    · rw [if_neg (fun h => hp h.1), if_neg hp]; norm_num

/-- The state after a move: the copying does not touch parameters that move or are penalised. -/
theorem move_share (hs : c.SharedOk) {pm q : ℕ → ℝ} {w : ℕ} {x : ℝ}
    (hq : c.share (Function.update pm w x) = .ok q) :
    (∀ a, (c.uniTf = 2 → ∀ p ∈ c.shared, p.1 ≠ a) → q a = Function.update pm w x a) ∧
    (c.uniTf = 2 → ∀ p ∈ c.shared, q p.1 = Function.update pm w x p.2) := by
  obtain ⟨q', hq', h1, h2⟩ := c.share_ok hs (Function.update pm w x)
  rw [hq'] at hq
  simp only [Res.ok.injEq] at hq
  subst hq
  exact ⟨h1, h2⟩

/-- Moving back and copying restores the particle. -/
theorem share_back (hs : c.SharedOk) {pm q : ℕ → ℝ} (hpm : MoveState c pm) {w : ℕ} {x : ℝ}
    (hq : c.share (Function.update pm w x) = .ok q) :
    c.share (Function.update q w (pm w)) = .ok pm := by
  obtain ⟨h1, h2⟩ := c.move_share hs hq
  obtain ⟨r, hr, g1, g2⟩ := c.share_ok hs (Function.update q w (pm w))
  rw [hr]
  simp only [Res.ok.injEq]
  have hsrc : c.uniTf = 2 → ∀ p ∈ c.shared, Function.update q w (pm w) p.2 = pm p.2 := by
    intro hu p hp
    by_cases e : p.2 = w
    · rw [e, Function.update_self]
    · rw [Function.update_of_ne e, h1 p.2 fun _ p' hp' => (c.shared_source hu hs p hp p' hp').symm,
        Function.update_of_ne e]
  funext a
  by_cases ha : c.uniTf = 2 ∧ ∃ p ∈ c.shared, p.1 = a
  · obtain ⟨hu, ⟨p1, p2⟩, hp, rfl⟩ := ha
    rw [g2 hu _ hp, hsrc hu _ hp]
    obtain ⟨i, j, k, t, _, hj, hk, ht, rfl, rfl⟩ := c.mem_shared.1 hp
    have := hpm.copy hu i j k t hj hk ht
    simp only
    rw [show c.idxLine i j + (1 + 3 * k + t) = c.idxLine i j + 1 + k * 3 + t by omega,
      show c.idxLine 0 j + (1 + 3 * k + t) = c.idxLine 0 j + 1 + k * 3 + t by omega, this]
  · have hn : c.uniTf = 2 → ∀ p ∈ c.shared, p.1 ≠ a := fun hu p hp e => ha ⟨hu, p, hp, e⟩
    rw [g1 a hn]
    by_cases e : a = w
    · rw [e, Function.update_self]
    · rw [Function.update_of_ne e, h1 a hn, Function.update_of_ne e]

/-- The bounds of a move contain the old value and are the same for the way back. -/
theorem bounds_back (hs : c.SharedOk) {pm q : ℕ → ℝ} (hpm : MoveState c pm) {w : ℕ}
    (hw : w < c.numParams) {x : ℝ} (hf : c.fix w = none)
    (hq : c.share (Function.update pm w x) = .ok q) :
    (c.bounds pm w).1 ≤ pm w ∧ pm w < (c.bounds pm w).2 ∧ c.bounds q w = c.bounds pm w := by
  obtain ⟨hr1, hr2⟩ := hpm.range w hw hf
  rcases c.bounds_cases w hw with h | ⟨ho, b, hb, k, hk, rfl, h⟩
  · rw [h, h]; exact ⟨hr1, hr2, rfl⟩
  · obtain ⟨h1, -⟩ := c.move_share hs hq
    obtain ⟨i, j, hj, rfl⟩ := c.bno_surj b hb
    have ht0 : c.typeLag = 0 := by unfold ordered at ho; simp at ho; exact ho.1
    have hord : ∀ k, k + 1 < c.ng → pm (c.cen (c.bno i j) k) < pm (c.cen (c.bno i j) (k + 1)) := by
      intro k hk
      have := hpm.order ht0 i j k hj hk
      rw [c.idxLine_eq i j hj] at this
      unfold cen
      convert this using 2 <;> omega
    have hsame : ∀ k', k' < c.ng → k' ≠ k → q (c.cen (c.bno i j) k') =
        pm (c.cen (c.bno i j) k') := by
      intro k' hk' hne
      rw [h1, Function.update_of_ne]
      · intro e; exact hne (c.cen_inj hk' hk e).2
      · intro hu
        obtain ⟨j', hj', hb'⟩ := c.free_first hs hu hb ⟨k, 1, hk, Or.inl rfl, rfl⟩ hf
        rw [hb']
        exact c.not_target hs hj' (by unfold blk; omega) hu
    rw [h pm, h q]
    refine ⟨?_, ?_, ?_⟩
    · simp only
      split
      · exact hr1
      · have := hord (k - 1) (by omega)
        rw [Nat.sub_add_cancel (by omega)] at this
        exact this.le
    · simp only
      split
      · rename_i hk1; exact hord k hk1
      · exact hr2
    · congr 1
      · split
        · rfl
        · rw [hsame (k - 1) (by omega) (by omega)]
      · split
        · rename_i hk1; rw [hsame (k + 1) hk1 (by omega)]
        · rfl

/-- The line, component and data set whose penalty a moved lag or width is charged. -/
theorem own_of_free (hs : c.SharedOk) (hg : c.gap → ∀ i < c.nl.length, 0 < c.nl.getD i 0)
    {b k t : ℕ} (hb : b < c.nblocks) (hk : k < c.ng) (ht : t = 1 ∨ t = 2)
    (hf : c.fix (c.blk * b + c.numVar + (1 + 3 * k + t)) = none) :
    ∃ i j, i < c.nl.length ∧ j < ownLines c i ∧ c.bno i j = b ∧
      (c.gap → c.getIdxSet (c.blk * b + c.numVar + (1 + 3 * k + t)) = .ok i) := by
  by_cases h1 : c.uniTf = 1
  · obtain ⟨i', j', hj', rfl⟩ := c.bno_surj b hb
    have hi' := lt_of_getD_lt hj'
    refine ⟨c.nl.length - 1, j', by omega, ?_, by simp [bno, h1], fun hgap => ?_⟩
    · unfold ownLines
      rw [if_pos h1, if_pos (by omega)]
      have := getD_le_foldl_max c.nl 0 i'
      omega
    · have := C64_uniform c i' j' k t hj' h1 (hg hgap)
      rw [c.idxLine_eq i' j' hj'] at this
      rw [← this]; congr 1; omega
  · have hset : ∀ i j, j < c.nl.getD i 0 → c.bno i j = b → c.gap →
        c.getIdxSet (c.blk * b + c.numVar + (1 + 3 * k + t)) = .ok i := by
      intro i j hj hbe hgap
      have := (C39_roles c i j k t hj hk (by omega)).2.2 h1 (hg hgap)
      rw [c.idxLine_eq i j hj, hbe] at this
      rw [← this]; congr 1; omega
    by_cases h2 : c.uniTf = 2
    · obtain ⟨j, hj, hbe⟩ := c.free_first hs h2 hb ⟨k, t, hk, ht, rfl⟩ hf
      refine ⟨0, j, lt_of_getD_lt hj, ?_, hbe.symm, hset 0 j hj hbe.symm⟩
      unfold ownLines
      rw [if_neg h1, if_pos h2, if_pos rfl]; exact hj
    · obtain ⟨i, j, hj, hbe⟩ := c.bno_surj b hb
      refine ⟨i, j, lt_of_getD_lt hj, ?_, hbe, hset i j hj hbe⟩
      unfold ownLines
      rw [if_neg h1, if_neg h2]; exact hj

/-- What a move of a line parameter is charged. -/
theorem moveLogH_line (hs : c.SharedOk) (hg : c.gap → ∀ i < c.nl.length, 0 < c.nl.getD i 0)
    {w : ℕ} (hw : w < c.numParams) (hv : c.numVar ≤ w) (hf : c.fix w = none) :
    ((∀ pm V, c.moveLogH pm V w = .ok 0) ∧ ∀ i j k, j < ownLines c i → k < c.ng →
      lineStart c i j + (3 * k + 2) ≠ w ∧ lineStart c i j + (3 * k + 3) ≠ w) ∨
    ∃ i j k, i < c.nl.length ∧ j < ownLines c i ∧ k < c.ng ∧
      (∀ pm V, c.moveLogH pm V w = .ok (-compPenalty c i (V (lineStart c i j + (3 * k + 2)))
        (V (lineStart c i j + (3 * k + 3))))) ∧
      ∀ i' j' k', j' < ownLines c i' → k' < c.ng → ¬ (i' = i ∧ j' = j ∧ k' = k) →
        lineStart c i' j' + (3 * k' + 2) ≠ w ∧ lineStart c i' j' + (3 * k' + 3) ≠ w := by
  have hset : c.gap = true → ∃ i, c.getIdxSet w = .ok i := fun hgap => by
    obtain ⟨i, h, -⟩ := c.getIdxSetLoop_ok w c.nl.length le_rfl (hg hgap)
    exact ⟨i, h⟩
  obtain ⟨b, o, hb, ho, rfl⟩ := c.addr_split hv hw
  have hinj : ∀ i j k o', o' = 3 * k + 2 ∨ o' = 3 * k + 3 → k < c.ng →
      lineStart c i j + o' = c.blk * b + c.numVar + o → c.bno i j = b ∧ o' = o := by
    intro i j k o' ho' hk e
    rw [c.lineStart_eq] at e
    exact block_addr_inj (B := c.blk) (by unfold blk; omega) ho (by omega)
  rcases c.offset_cases ho with rfl | ⟨k, t, hk, ht, rfl⟩
  · left
    refine ⟨fun pm V => ?_, fun i j k hj hk => ⟨fun e => ?_, fun e => ?_⟩⟩
    · have hrole := c.role_err b
      unfold moveLogH checkPositivity
      rw [if_neg (by omega), Nat.add_zero, hrole]
      by_cases hgap : c.gap = true
      · obtain ⟨i, hi⟩ := hset hgap
        rw [Nat.add_zero] at hi
        simp [hgap, checkGap, hi, hrole]
      · simp [hgap]
    · have := (hinj i j k _ (Or.inl rfl) hk e).2; omega
    · have := (hinj i j k _ (Or.inr rfl) hk e).2; omega
  · obtain ⟨hrole, -⟩ := c.role_comp b k t hk ht
    by_cases ht0 : t = 0
    · subst ht0
      left
      refine ⟨fun pm V => ?_, fun i j k' hj hk' => ⟨fun e => ?_, fun e => ?_⟩⟩
      · unfold moveLogH checkPositivity
        rw [if_neg (by omega), hrole]
        by_cases hgap : c.gap = true
        · obtain ⟨i, hi⟩ := hset hgap
          rw [Nat.add_zero] at hi hrole
          simp [hgap, checkGap, hi, hrole]
        · simp [hgap]
      · have := (hinj i j k' _ (Or.inl rfl) hk' e).2; omega
      · have := (hinj i j k' _ (Or.inr rfl) hk' e).2; omega
    · right
      have ht12 : t = 1 ∨ t = 2 := by omega
      obtain ⟨i, j, hi, hj, hbe, hgi⟩ := c.own_of_free hs hg hb hk ht12 hf
      refine ⟨i, j, k, hi, hj, hk, fun pm V => ?_, fun i' j' k' hj' hk' hne => ⟨fun e => hne ?_,
        fun e => hne ?_⟩⟩
      · rw [c.compPenalty_eq, c.lineStart_eq, hbe]
        unfold moveLogH checkPositivity
        rw [if_neg (by omega), hrole]
        rcases ht12 with rfl | rfl
        · have e1 : c.blk * b + c.numVar + (3 * k + 2) = c.blk * b + c.numVar + (1 + 3 * k + 1) := by
            omega
          have e2 : c.blk * b + c.numVar + (3 * k + 3) =
              c.blk * b + c.numVar + (1 + 3 * k + 1) + 1 := by omega
          rw [e1, e2]
          by_cases hgap : c.gap = true
          · simp [hgap, checkGap, hgi hgap, hrole]
          · simp [hgap]
        · have e1 : c.blk * b + c.numVar + (3 * k + 2) =
              c.blk * b + c.numVar + (1 + 3 * k + 2) - 1 := by omega
          have e2 : c.blk * b + c.numVar + (3 * k + 3) = c.blk * b + c.numVar + (1 + 3 * k + 2) := by
            omega
          rw [e1, e2]
          by_cases hgap : c.gap = true
          · simp [hgap, checkGap, hgi hgap, hrole]
          · simp [hgap]
      · obtain ⟨h1, h2⟩ := hinj i' j' k' _ (Or.inl rfl) hk' e
        obtain ⟨h3, h4⟩ := c.own_inj hj' hj (by rw [h1, hbe])
        exact ⟨h3, h4, by omega⟩
      · obtain ⟨h1, h2⟩ := hinj i' j' k' _ (Or.inr rfl) hk' e
        obtain ⟨h3, h4⟩ := c.own_inj hj' hj (by rw [h1, hbe])
        exact ⟨h3, h4, by omega⟩

theorem start_ge (i j o : ℕ) : c.numVar ≤ lineStart c i j + o := by
  rw [c.lineStart_eq]; omega

/-- The balance of one move, in logarithms. -/
theorem log_balance (hs : c.SharedOk) (hg : c.gap → ∀ i < c.nl.length, 0 < c.nl.getD i 0)
    {pm q : ℕ → ℝ} {w : ℕ} {x : ℝ} (hw : w < c.numParams) (hf : c.fix w = none)
    (hq : c.share (Function.update pm w x) = .ok q) {l : ℝ}
    (hl : c.moveLogH pm (Function.update pm w x) w = .ok l) :
    ∃ l', c.moveLogH q (Function.update q w (pm w)) w = .ok l' ∧
      logPrior c pm + min 0 l = logPrior c q + min 0 l' := by
  obtain ⟨h1, -⟩ := c.move_share hs hq
  have hnv : (if c.uniVar then 3 else 3 * c.nl.length) = c.numVar := rfl
  have hown : ∀ i j o, j < ownLines c i → o < c.blk → lineStart c i j + o ≠ w →
      q (lineStart c i j + o) = pm (lineStart c i j + o) := by
    intro i j o hj ho hne
    rw [h1 _ (c.own_not_target hs hj ho), Function.update_of_ne hne]
  have hvar : ∀ a < c.numVar, a ≠ w → q a = pm a := by
    intro a ha hne
    rw [h1, Function.update_of_ne hne]
    rintro hu ⟨p, p'⟩ hp rfl
    obtain ⟨i, j, k, t, _, _, _, _, _, e, _⟩ := c.shared_spec hu hs hp
    simp only at ha
    omega
  have hqw : q w = x := by
    rw [h1 w (c.free_not_target hf), Function.update_self]
  by_cases hv : w < c.numVar
  · -- a variability parameter
    simp only [moveLogH, hv, if_true, Res.ok.injEq, Function.update_self] at hl
    refine ⟨0 - c.varTerm w (q w) + c.varTerm w (pm w), by simp [moveLogH, hv], ?_⟩
    have hpen : ∀ i j k, i < c.nl.length → j < ownLines c i → k < c.ng →
        compPenalty c i (q (lineStart c i j + (3 * k + 2))) (q (lineStart c i j + (3 * k + 3))) =
        compPenalty c i (pm (lineStart c i j + (3 * k + 2)))
          (pm (lineStart c i j + (3 * k + 3))) := by
      intro i j k _ hj hk
      have g1 := c.start_ge i j (3 * k + 2)
      have g2 := c.start_ge i j (3 * k + 3)
      rw [hown i j _ hj (by unfold blk; omega) (by omega),
        hown i j _ hj (by unfold blk; omega) (by omega)]
    have hd : logPrior c q - logPrior c pm = c.varTerm w x - c.varTerm w (pm w) := by
      unfold logPrior
      rw [hnv]
      have e1 := c.penalty_none (fun i j k => compPenalty c i (q (lineStart c i j + (3 * k + 2)))
          (q (lineStart c i j + (3 * k + 3))) - compPenalty c i
          (pm (lineStart c i j + (3 * k + 2))) (pm (lineStart c i j + (3 * k + 3))))
        (fun i j k hi hj hk => by rw [hpen i j k hi hj hk, sub_self])
      simp only [Finset.sum_sub_distrib] at e1
      have e2 : ∑ i ∈ Finset.range c.numVar, (-((q i - c.varPar i) ^ 2 / (2 * c.varStd i ^ 2)) -
          -((pm i - c.varPar i) ^ 2 / (2 * c.varStd i ^ 2))) =
          c.varTerm w x - c.varTerm w (pm w) := by
        rw [Finset.sum_eq_single w]
        · rw [hqw]
          unfold varTerm
          rw [div_pow, div_pow]
          ring
        · intro a ha hne
          rw [hvar a (by simpa using ha) hne, sub_self]
        · intro h; exact absurd (by simpa using hv) h
      rw [Finset.sum_sub_distrib] at e2
      linarith
    rw [hqw]
    rw [← hl]
    rcases le_total (c.varTerm w x) (c.varTerm w (pm w)) with hle | hle
    · rw [min_eq_right (by linarith), min_eq_left (by linarith)]; linarith
    · rw [min_eq_left (by linarith), min_eq_right (by linarith)]; linarith
  · -- a line parameter
    have hvsum : ∑ i ∈ Finset.range c.numVar, -((q i - c.varPar i) ^ 2 / (2 * c.varStd i ^ 2)) =
        ∑ i ∈ Finset.range c.numVar, -((pm i - c.varPar i) ^ 2 / (2 * c.varStd i ^ 2)) := by
      refine Finset.sum_congr rfl fun a ha => ?_
      have ha' : a < c.numVar := by simpa using ha
      rw [hvar a ha' (by omega)]
    rcases c.moveLogH_line hs hg hw (by omega) hf with ⟨hz, hne⟩ | ⟨i0, j0, k0, hi, hj, hk, hz, hne⟩
    · rw [hz] at hl
      simp only [Res.ok.injEq] at hl
      refine ⟨0, hz _ _, ?_⟩
      rw [← hl]
      have e1 := c.penalty_none (fun i j k => compPenalty c i (q (lineStart c i j + (3 * k + 2)))
          (q (lineStart c i j + (3 * k + 3))) - compPenalty c i
          (pm (lineStart c i j + (3 * k + 2))) (pm (lineStart c i j + (3 * k + 3))))
        (fun i j k _ hj hk => by
          rw [hown i j _ hj (by unfold blk; omega) (hne i j k hj hk).1,
            hown i j _ hj (by unfold blk; omega) (hne i j k hj hk).2, sub_self])
      simp only [Finset.sum_sub_distrib] at e1
      unfold logPrior
      rw [hnv, hvsum]
      linarith
    · rw [hz] at hl
      simp only [Res.ok.injEq] at hl
      refine ⟨_, hz _ _, ?_⟩
      have e1 := c.penalty_change (fun i j k => compPenalty c i
          (q (lineStart c i j + (3 * k + 2)))
          (q (lineStart c i j + (3 * k + 3))) - compPenalty c i
          (pm (lineStart c i j + (3 * k + 2))) (pm (lineStart c i j + (3 * k + 3)))) i0 j0 k0
        hi hj hk
        (fun i j k _ hj hk hn => by
          rw [hown i j _ hj (by unfold blk; omega) (hne i j k hj hk hn).1,
            hown i j _ hj (by unfold blk; omega) (hne i j k hj hk hn).2, sub_self])
      simp only [Finset.sum_sub_distrib] at e1
      have hfw : ∀ o < c.blk, Function.update pm w x (lineStart c i0 j0 + o) =
          q (lineStart c i0 j0 + o) := fun o ho => (h1 _ (c.own_not_target hs hj ho)).symm
      have hbw : ∀ o < c.blk, Function.update q w (pm w) (lineStart c i0 j0 + o) =
          pm (lineStart c i0 j0 + o) := by
        intro o ho
        by_cases e : lineStart c i0 j0 + o = w
        · rw [e, Function.update_self]
        · rw [Function.update_of_ne e, hown i0 j0 o hj ho e]
      rw [hfw _ (by unfold blk; omega), hfw _ (by unfold blk; omega)] at hl
      rw [hbw _ (by unfold blk; omega), hbw _ (by unfold blk; omega), ← hl]
      have p1 := c.compPenalty_nonneg i0 (q (lineStart c i0 j0 + (3 * k0 + 2)))
        (q (lineStart c i0 j0 + (3 * k0 + 3)))
      have p2 := c.compPenalty_nonneg i0 (pm (lineStart c i0 j0 + (3 * k0 + 2)))
        (pm (lineStart c i0 j0 + (3 * k0 + 3)))
      rw [min_eq_right (by linarith), min_eq_right (by linarith)]
      unfold logPrior
      rw [hnv, hvsum]
      linarith

end LineCfg
end Mica
