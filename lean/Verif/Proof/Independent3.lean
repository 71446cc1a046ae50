import Verif.Proof.Independent2
import Verif.Props.Order

/-!
# Helper lemmas for C126: the likelihood of a joint run
-/

namespace Mica

theorem permOn_id (n : ℕ) : PermOn n id := ⟨fun _ h => h, fun _ _ _ _ h => h⟩

section
variable {ng : ℕ} {pm pm' : ℕ → ℝ} {idxc idxc' : ℕ} {idxl idxl' : ℕ → ℕ} {d : DSet}

theorem ParsMoved.sll {J : ℕ} (h : ParsMoved ng J pm pm' idxc idxc' idxl idxl' id) (lin : Bool) (typ : ℕ → TF) {j : ℕ}
    (hj : j < J) (t1 t2 : ℝ) :
    (KEnv.mk ng lin typ pm' idxc' idxl').sll t1 t2 j = (KEnv.mk ng lin typ pm idxc idxl).sll t1 t2 j := by
  rw [KEnv.sll, KEnv.sll, foldl_add_range2, foldl_add_range2, h.taud]
  congr 1
  refine Finset.sum_congr rfl fun k hk => Finset.sum_congr rfl fun k' hk' => ?_
  rw [h.comp lin typ hj (Finset.mem_range.1 hk), h.comp lin typ hj (Finset.mem_range.1 hk')]
  rfl

/-- The covariance matrix of a data set depends on its own parameters only. -/
theorem ParsMoved.cov (h : ParsMoved ng d.line.length pm pm' idxc idxc' idxl idxl' id) (lin : Bool) (typ : ℕ → TF) :
    d.cov (KEnv.mk ng lin typ pm' idxc' idxl').kernels pm' idxc' idxl' =
      d.cov (KEnv.mk ng lin typ pm idxc idxl).kernels pm idxc idxl := by
  have hlen : d.series.length = d.line.length + 1 := by simp [DSet.series]
  have h0 := h.con 0 (by omega)
  have h1 := h.con 1 (by omega)
  have h2 := h.con 2 (by omega)
  rw [add_zero, add_zero] at h0
  have htau : pmTau pm' idxc' = pmTau pm idxc := by simp only [pmTau, h2]
  have hsig : pmSigma pm' idxc' = pmSigma pm idxc := by simp only [pmSigma, pmTau, h1, h2]
  ext p q
  have hx := locate_series_lt d.series p p.2
  have hy := locate_series_lt d.series q q.2
  simp only [DSet.cov, Matrix.of_apply]
  generalize locate d.series p = x at hx
  generalize locate d.series q = y at hy
  obtain ⟨s, i⟩ := x
  obtain ⟨s', i'⟩ := y
  simp only at hx hy
  rw [Mica.covEntry, Mica.covEntry]
  have hn : noiseVar d pm' idxc' idxl' (s, i) = noiseVar d pm idxc idxl (s, i) := by
    rcases s with _ | s
    · simp only [noiseVar, hsig, pmSyserr, h0]
    · have := h.line s (by omega) 0 (by omega)
      rw [add_zero, add_zero] at this
      simp only [noiseVar, hsig, pmSyserr, this, id]
  rw [hn, htau]
  congr 1
  rcases s with _ | s <;> rcases s' with _ | s'
  · rfl
  · simp only [Mica.sigCov, KEnv.kernels]
    exact h.slc lin typ (by omega) _ _
  · simp only [Mica.sigCov, KEnv.kernels]
    exact h.slc lin typ (by omega) _ _
  · simp only [Mica.sigCov, KEnv.kernels]
    split
    · split
      · exact h.sll lin typ (by omega) _ _
      · exact h.sll lin typ (by omega) _ _
    · split
      · exact h.sll2 lin typ (by omega) (by omega) _ _
      · exact h.sll2 lin typ (by omega) (by omega) _ _

end

/-! ### The loop over data sets -/

theorem loop_shift {term term' : ℕ → DSet → Res (Option ℝ)} (ds : List DSet) (k k' : ℕ) (p : ℝ)
    (h : ∀ i d, ds[i]? = some d → term' (k' + i) d = term (k + i) d) :
    probLineLoop term' ds k' p = probLineLoop term ds k p := by
  induction ds generalizing k k' p with
  | nil => rfl
  | cons d ds ih =>
    simp only [probLineLoop]
    rw [show term' k' d = term k d from h 0 d rfl]
    cases term k d <;> simp
    rename_i r
    cases r <;> simp
    refine ih (k + 1) (k' + 1) _ fun i d hd => ?_
    have := h (i + 1) d hd
    rwa [← Nat.add_assoc, ← Nat.add_assoc, Nat.add_right_comm k', Nat.add_right_comm k] at this

/-- The loop over two lists of data sets. -/
theorem loop_append {term : ℕ → DSet → Res (Option ℝ)} (ds ds' : List DSet) (k : ℕ) (p v : ℝ)
    (h : probLineLoop term ds k p = .ok v) (hv : v ≠ -DBL_MAX) :
    probLineLoop term (ds ++ ds') k p = probLineLoop term ds' (k + ds.length) v := by
  induction ds generalizing k p with
  | nil => simp only [probLineLoop] at h; cases h; rfl
  | cons d ds ih =>
    simp only [probLineLoop, List.cons_append] at h ⊢
    cases ht : term k d <;> rw [ht] at h <;> simp at h ⊢
    rename_i r
    cases r <;> simp at h ⊢
    · exact absurd h.symm hv
    · rw [ih _ _ h]
      congr 1
      omega

theorem loop_start {term : ℕ → DSet → Res (Option ℝ)} (ds : List DSet) (k : ℕ) (p a v : ℝ)
    (h : probLineLoop term ds k p = .ok v) (hv : v ≠ -DBL_MAX) :
    probLineLoop term ds k (p + a) = .ok (v + a) := by
  induction ds generalizing k p with
  | nil => simp only [probLineLoop] at h ⊢; cases h; rfl
  | cons d ds ih =>
    simp only [probLineLoop] at h ⊢
    cases ht : term k d <;> rw [ht] at h <;> simp at h ⊢
    rename_i r
    cases r <;> simp at h ⊢
    · exact absurd h.symm hv
    · rename_i w
      have := ih _ _ h
      rwa [add_right_comm] at this

/-- If the loop over two lists completes, so do the loops over each. -/
theorem loop_split {term : ℕ → DSet → Res (Option ℝ)} (ds ds' : List DSet) (k : ℕ) (p v : ℝ)
    (h : probLineLoop term (ds ++ ds') k p = .ok v) (hv : v ≠ -DBL_MAX) :
    ∃ w, probLineLoop term ds k p = .ok w ∧ probLineLoop term ds' (k + ds.length) w = .ok v := by
  induction ds generalizing k p with
  | nil => exact ⟨p, rfl, h⟩
  | cons d ds ih =>
    simp only [probLineLoop, List.cons_append] at h ⊢
    cases ht : term k d <;> rw [ht] at h <;> simp at h ⊢
    rename_i r
    cases r <;> simp at h ⊢
    · exact absurd h.symm hv
    · obtain ⟨w, h1, h2⟩ := ih _ _ h
      refine ⟨w, h1, ?_⟩
      rwa [show k + (ds.length + 1) = k + 1 + ds.length by omega]

/-- What it takes that a joint likelihood is the sum of those of the parts. -/
theorem loop_parts {term term1 term2 : ℕ → DSet → Res (Option ℝ)} (ds : List DSet) (m : ℕ) (hm : m ≤ ds.length)
    (h1 : ∀ i d, i < m → ds[i]? = some d → term1 i d = term i d)
    (h2 : ∀ i d, ds[m + i]? = some d → term2 i d = term (m + i) d) :
    (∀ v1 v2, probLineLoop term1 (ds.take m) 0 0 = .ok v1 → probLineLoop term2 (ds.drop m) 0 0 = .ok v2 →
      v1 ≠ -DBL_MAX → v2 ≠ -DBL_MAX → probLineLoop term ds 0 0 = .ok (v1 + v2)) ∧
    (∀ v, probLineLoop term ds 0 0 = .ok v → v ≠ -DBL_MAX → ∃ v1 v2, probLineLoop term1 (ds.take m) 0 0 = .ok v1 ∧
      probLineLoop term2 (ds.drop m) 0 0 = .ok v2 ∧ v = v1 + v2) := by
  have e1 : probLineLoop term1 (ds.take m) 0 0 = probLineLoop term (ds.take m) 0 0 := by
    refine loop_shift _ 0 0 0 fun i d hd => ?_
    rw [List.getElem?_take] at hd
    split at hd
    · rename_i hi
      rw [Nat.zero_add]; exact h1 i d hi hd
    · cases hd
  have e2 : probLineLoop term2 (ds.drop m) 0 0 = probLineLoop term (ds.drop m) m 0 := by
    refine loop_shift _ m 0 0 fun i d hd => ?_
    rw [List.getElem?_drop] at hd
    rw [Nat.zero_add]; exact h2 i d hd
  have hl : (ds.take m).length = m := by simp [hm]
  have happ := List.take_append_drop m ds
  constructor
  · intro v1 v2 w1 w2 n1 n2
    rw [e1] at w1
    rw [e2] at w2
    rw [← happ, loop_append _ _ _ _ _ w1 n1, hl, Nat.zero_add]
    have := loop_start _ _ 0 v1 _ w2 n2
    rwa [zero_add, add_comm v2] at this
  · intro v w n
    rw [← happ] at w
    obtain ⟨v1, a, b⟩ := loop_split _ _ _ _ _ w n
    rw [hl, Nat.zero_add] at b
    refine ⟨v1, v - v1, by rw [e1]; exact a, ?_, by ring⟩
    have := loop_start _ _ v1 (-v1) _ b n
    rw [add_neg_cancel] at this
    rw [e2, this, sub_eq_add_neg]

/-! ### Parameters of the parts -/

namespace LineCfg
variable {c : LineCfg} {m : ℕ}

theorem Separate.row_lt (h : c.Separate) {i j r : ℕ} (hj : j < c.nl.getD i 0) (hr : r ≤ 3 * c.ng) :
    lineStart c i j + r < c.numParams := by
  rcases Nat.eq_zero_or_pos c.ng with h0 | h0
  · have hi := lt_of_getD_lt hj
    rw [h.numParams]
    unfold lineStart
    rw [h.var, h.tf]
    simp only [Bool.false_eq_true, if_false, show (0 : ℕ) ≠ 1 by omega]
    have h1 : (c.nl.take i).sum + c.nl.getD i 0 ≤ c.nl.sum := by
      have e : c.nl.sum = (c.nl.take (i + 1)).sum + (c.nl.drop (i + 1)).sum := sum_split
      rw [List.take_add_one, List.sum_append, List.getElem?_eq_getElem hi] at e
      rw [List.getD_eq_getElem _ _ hi]
      simp at e
      omega
    unfold blk
    rw [h0] at hr ⊢
    omega
  · obtain ⟨k, t, hk, ht, rfl⟩ : ∃ k t, k < c.ng ∧ t ≤ 3 ∧ r = 3 * k + t := by
      rcases Nat.lt_or_ge r (3 * c.ng) with hlt | hge
      · exact ⟨r / 3, r % 3, by omega, by omega, by omega⟩
      · exact ⟨c.ng - 1, 3, by omega, by omega, by omega⟩
    exact h.start_lt hj hk ht

theorem idxLine_start {i j : ℕ} (hj : j < c.nl.getD i 0) : c.idxLine i j = lineStart c i j := by
  rw [c.idxLine_eq i j hj, c.lineStart_eq]

theorem Separate.idxCon (h : c.Separate) (i : ℕ) : c.idxCon i = 3 * i := by
  unfold LineCfg.idxCon; rw [h.var]; simp

theorem Separate.moved_first (h : c.Separate) (hm : m ≤ c.nl.length) (x : Fin c.numParams → ℝ) {k : ℕ} (hk : k < m) :
    ParsMoved c.ng (c.nl.getD k 0) (extendVec x) (extendVec (partsOf c m x).1) (c.idxCon k) ((c.firstSets m).idxCon k)
      (c.idxLine k) ((c.firstSets m).idxLine k) id where
  perm := permOn_id _
  con := by
    intro r hr
    rw [h.idxCon, h.first.idxCon, first_ext x (by rw [h.first_num hm]; omega), placeFirst, if_pos (by omega)]
  line := by
    intro j hj r hr
    have hj1 : j < (c.firstSets m).nl.getD k 0 := by rw [first_getD hk]; exact hj
    rw [id, idxLine_start hj, idxLine_start hj1, first_ext x (h.first.row_lt hj1 hr), h.start_first hm hk]

theorem Separate.moved_last (h : c.Separate) (hm : m ≤ c.nl.length) (x : Fin c.numParams → ℝ) {k : ℕ}
    (hk : m + k < c.nl.length) :
    ParsMoved c.ng (c.nl.getD (m + k) 0) (extendVec x) (extendVec (partsOf c m x).2) (c.idxCon (m + k))
      ((c.lastSets m).idxCon k) (c.idxLine (m + k)) ((c.lastSets m).idxLine k) id where
  perm := permOn_id _
  con := by
    intro r hr
    rw [h.idxCon, h.last.idxCon, last_ext x (by rw [h.last_num]; omega), placeLast, if_pos (by omega)]
    congr 1
    omega
  line := by
    intro j hj r hr
    have hj1 : j < (c.lastSets m).nl.getD k 0 := by rw [last_getD]; exact hj
    rw [id, idxLine_start hj, idxLine_start hj1, last_ext x (h.last.row_lt hj1 hr), h.start_last hm]

end LineCfg

/-- Equal parameters of a data set give equal contributions to each of the likelihoods. -/
theorem terms_same {ng : ℕ} {pm pm' : ℕ → ℝ} {idxc idxc' : ℕ → ℕ} {idxl idxl' : ℕ → ℕ → ℕ} {k k' : ℕ} {d : DSet}
    (h : ParsMoved ng d.line.length pm pm' (idxc k) (idxc' k') (idxl k) (idxl' k') id) (nq : ℕ) (lin : Bool) (typ : ℕ → TF)
    (mem mem' : ℕ → ℝ) :
    (tfEnv nq ng lin typ pm' idxc' idxl' mem').PC k' d = (tfEnv nq ng lin typ pm idxc idxl mem).PC k d ∧
    pmSigma pm' (idxc' k') = pmSigma pm (idxc k) ∧
    ∀ PC, lineTerm4 nq d pm' (idxc' k') PC = lineTerm4 nq d pm (idxc k) PC := by
  have h0 := h.con 0 (by omega)
  have h1 := h.con 1 (by omega)
  have h2 := h.con 2 (by omega)
  rw [add_zero, add_zero] at h0
  have htau : pmTau pm' (idxc' k') = pmTau pm (idxc k) := by simp only [pmTau, h2]
  have hsig : pmSigma pm' (idxc' k') = pmSigma pm (idxc k) := by simp only [pmSigma, pmTau, h1, h2]
  refine ⟨?_, hsig, fun PC => ?_⟩
  · unfold LineEnv.PC
    rw [PCarr_eq, PCarr_eq]
    exact h.cov lin typ
  · have hs : pmSyserr pm' (idxc' k') d.con.em = pmSyserr pm (idxc k) d.con.em := by simp only [pmSyserr, h0]
    unfold lineTerm4
    rw [htau, hsig, hs]

end Mica
