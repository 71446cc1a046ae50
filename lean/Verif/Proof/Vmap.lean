import Verif.Proof.LineInv2
import Verif.Model.Vmap

/-! # Helper lemmas: the virtual-continuum mode -/

namespace Mica

/-! ## Double arithmetic -/

namespace Fl

theorem add_nan (a : Fl) : add a nan = nan := by cases a <;> rfl

theorem nan_add (a : Fl) : add nan a = nan := by cases a <;> rfl

theorem exp_nan : exp nan = nan := rfl

end Fl

theorem acceptFl_nan (u : ℝ) (l v : Fl) : acceptFl .nan u l v = false := by
  simp [acceptFl, Fl.lt, Fl.exp, Fl.le]

/-- The acceptance test on a finite `logH` is the one of the sampler model. -/
theorem acceptFl_fin (h u l v : ℝ) :
    acceptFl (.fin h) u (.fin l) (.fin v) = true ↔
      u ≤ Real.exp (if h > 0 then 0 else h) ∧ l < v := by
  unfold acceptFl
  by_cases h0 : 0 < h
  · simp [Fl.lt, Fl.exp, Fl.le, h0]
  · simp [Fl.lt, Fl.exp, Fl.le, h0]

namespace LineCfg
variable (c : LineCfg)

theorem vVarTerm_zero {w : ℕ} (hs : c.varStd w = 0) (x : ℝ) :
    c.vVarTerm w x = .nan ∨ c.vVarTerm w x = .inf true := by
  unfold vVarTerm Fl.div
  rw [if_pos hs]
  split
  · left; rfl
  · right; rfl

/-- With a zero standard deviation the proposal ratio of a continuum parameter is not a number. -/
theorem vLogH_zero {w : ℕ} (hw : w < c.numVar) (hs : c.varStd w = 0) (pm q : ℕ → ℝ) :
    c.vLogH pm q w = .ok .nan := by
  unfold vLogH
  rw [if_pos hw]
  rcases c.vVarTerm_zero hs (pm w) with h | h <;> rcases c.vVarTerm_zero hs (q w) with h' | h' <;>
    rw [h, h'] <;> rfl

/-- With a positive standard deviation it is the logarithm of the ratio of two normal densities. -/
theorem vLogH_pos {w : ℕ} (hw : w < c.numVar) (hs : c.varStd w ≠ 0) (pm q : ℕ → ℝ) :
    c.vLogH pm q w = .ok (.fin (0 - c.varTerm w (pm w) + c.varTerm w (q w))) := by
  unfold vLogH vVarTerm Fl.div varTerm
  rw [if_pos hw, if_neg hs, if_neg hs]
  simp only [Fl.sq, Fl.mulNegHalf, Fl.sub, Fl.neg, Fl.add]
  congr 2

/-- What a proposal consists of. -/
theorem vPerturb_ok {s : ConStep c.numParams} {pm : ℕ → ℝ} {r : (ℕ → ℝ) × Fl}
    (h : c.vPerturb s pm = .ok r) :
    ∃ w : Fin c.numParams, c.vPick s.cands = .ok w ∧ ∃ x,
      dnestWrap (pm w + s.h * c.vStepWidth s w) (c.vBounds pm w).1 (c.vBounds pm w).2 = .ok x ∧
      r.1 = Function.update pm w x ∧ c.vLogH pm r.1 w = .ok r.2 := by
  unfold vPerturb at h
  obtain ⟨w, hw, h⟩ := Res.bind_eq_ok.1 h
  obtain ⟨x, hx, h⟩ := Res.bind_eq_ok.1 h
  obtain ⟨l, hl, h⟩ := Res.bind_eq_ok.1 h
  simp only [Res.pure_eq, Res.ok.injEq] at h
  subst h
  exact ⟨w, hw, x, hx, rfl, hl⟩

theorem vPerturb_mk {s : ConStep c.numParams} {pm : ℕ → ℝ} {w : Fin c.numParams} {x : ℝ} {l : Fl}
    (hw : c.vPick s.cands = .ok w)
    (hx : dnestWrap (pm w + s.h * c.vStepWidth s w) (c.vBounds pm w).1 (c.vBounds pm w).2 = .ok x)
    (hl : c.vLogH pm (Function.update pm w x) w = .ok l) :
    c.vPerturb s pm = .ok (Function.update pm w x, l) := by
  simp only [vPerturb, hw, hx, hl, Res.ok_bind, Res.pure_eq]

/-! ## Fixed values -/

theorem vPick_free {l : List (Fin c.numParams)} {w : Fin c.numParams} (h : c.vPick l = .ok w) :
    c.vfix w = none := by
  induction l with
  | nil => simp [vPick] at h
  | cons a l ih =>
    unfold vPick at h
    split at h
    · exact ih h
    · rename_i hn
      simp only [Res.ok.injEq] at h; subst h
      simpa using hn

theorem vPick_not_exit (l : List (Fin c.numParams)) : c.vPick l ≠ .exit ∧ c.vPick l ≠ .ub := by
  induction l with
  | nil => simp [vPick]
  | cons a l ih => unfold vPick; split <;> simp [ih]

/-- Where a fixed value comes from. -/
theorem vfix_cases (hok : c.vOk) {a : ℕ} {v : ℝ} (h : c.vfix a = some v) :
    (v = Real.log (1 / 10) ∧ ∃ t, a = 3 * t + 1 ∧ a < c.numVar) ∨
    (v = 0 ∧ ∃ i < c.nl.length, 0 < c.nl.getD i 0 ∧ a = c.blk * c.bno i 0 + c.numVar + 2) ∨
    (v = 0 ∧ ∃ t, a = 3 * t ∧ a < c.numVar) ∨
    (c.lineSys = false ∧ v = 0 ∧ ∃ b < c.nblocks, a = c.blk * b + c.numVar) := by
  have hm := applyFix_some _ _ _ h
  obtain ⟨m, hmv⟩ := c.numVar_mod
  unfold vFixWrites at hm
  simp only [List.mem_append, List.mem_map, List.mem_range, Prod.mk.injEq] at hm
  rcases hm with ((⟨t, ht, h1, h2⟩ | ⟨i, hi, h1, h2⟩) | ⟨t, ht, h1, h2⟩) | hm
  · left; exact ⟨h2.symm, t, h1.symm, by omega⟩
  · right; left
    have hpos : 0 < c.nl.getD i 0 := by
      unfold vOk at hok
      rw [List.all_eq_true] at hok
      rw [List.getD_eq_getElem _ _ hi]
      simpa using hok _ (List.getElem_mem hi)
    rw [c.idxLine_eq i 0 hpos] at h1
    exact ⟨h2.symm, i, hi, hpos, h1.symm⟩
  · right; right; left
    exact ⟨by rw [← h2, Real.log_one], t, h1.symm, by omega⟩
  · right; right; right
    split at hm
    · simp at hm
    · rename_i hl
      simp only [List.mem_map, List.mem_range, Prod.mk.injEq, numLine_div] at hm
      obtain ⟨b, hb, h1, h2⟩ := hm
      exact ⟨by simpa using hl, by rw [← h2, Real.log_one], b, hb, h1.symm⟩

/-- Only lags of first components are fixed, at zero. -/
theorem vfix_cen (hok : c.vOk) {b k : ℕ} {v : ℝ} (hk : k < c.ng) (h : c.vfix (c.cen b k) = some v) :
    k = 0 ∧ v = 0 := by
  rcases c.vfix_cases hok h with ⟨-, t, h1, h2⟩ | ⟨hv, i, -, -, h1⟩ | ⟨-, t, h1, h2⟩ | ⟨-, -, b', -, h1⟩
  · unfold cen at h2; omega
  · unfold cen at h1
    have := block_addr_inj (B := c.blk) (b := b) (b' := c.bno i 0) (q := 1 + 3 * k + 1) (q' := 2)
      (by unfold blk; omega) (by unfold blk; omega) (by omega)
    exact ⟨by omega, hv⟩
  · unfold cen at h2; omega
  · unfold cen at h1
    have := block_addr_inj (B := c.blk) (b := b) (b' := b') (q := 1 + 3 * k + 1) (q' := 0)
      (by unfold blk; omega) c.blk_pos (by omega)
    omega

/-! ## Ranges -/

theorem vBlockRanges_length (b : ℕ) : (c.vBlockRanges b).length = c.blk := by
  unfold vBlockRanges blk
  rw [List.length_cons, flatMap_range_length _ 3 (by simp)]; omega

theorem vVarPart_length :
    ((List.range (c.numVar / 3)).flatMap fun _ => [c.varRange 0, c.varRange 1, c.varRange 2]).length
      = c.numVar := by
  rw [flatMap_range_length _ 3 (by simp)]
  obtain ⟨m, hm⟩ := c.numVar_mod
  rw [hm]; omega

theorem vRanges_length : c.vRanges.length = c.numParams := by
  unfold vRanges numParams
  rw [List.length_append, vVarPart_length, flatMap_range_length _ c.blk c.vBlockRanges_length,
    numLine_div, numLine_eq]

theorem vrng_var (t q : ℕ) (hq : q < 3) (h : 3 * t + q < c.numVar) :
    c.vrng (3 * t + q) = c.varRange q := by
  unfold vrng vRanges
  rw [List.getD_append _ _ _ _ (by rw [vVarPart_length]; exact h),
    flatMap_range_getD _ 3 (by simp) _ _ _ (by obtain ⟨m, hm⟩ := c.numVar_mod; omega) hq]
  have : q = 0 ∨ q = 1 ∨ q = 2 := by omega
  rcases this with rfl | rfl | rfl <;> rfl

theorem vrng_line (b q : ℕ) (hb : b < c.nblocks) (hq : q < c.blk) :
    c.vrng (c.blk * b + c.numVar + q) = (c.vBlockRanges b).getD q (0, 0) := by
  unfold vrng vRanges
  rw [List.getD_append_right _ _ _ _ (by rw [vVarPart_length]; omega), vVarPart_length]
  rw [show c.blk * b + c.numVar + q - c.numVar = c.blk * b + q by omega,
    flatMap_range_getD _ c.blk c.vBlockRanges_length _ _ _ (by rwa [numLine_div]) hq]

theorem vrng_comp (b k t : ℕ) (hb : b < c.nblocks) (hk : k < c.ng) (ht : t < 3) :
    c.vrng (c.blk * b + c.numVar + (1 + 3 * k + t)) =
      [(if k = 0 ∧ b = 0 then Real.log (1 / 10) else c.ampRange.1, c.ampRange.2),
       c.lagWindow k, c.widthWindow k].getD t (0, 0) := by
  rw [c.vrng_line b _ hb (by unfold blk; omega)]
  unfold vBlockRanges
  rw [show 1 + 3 * k + t = (3 * k + t) + 1 by omega, List.getD_cons_succ,
    flatMap_range_getD _ 3 (by simp) _ _ _ hk ht]

theorem vrng_cen (ho : c.ordered) (b k : ℕ) (hb : b < c.nblocks) (hk : k < c.ng) :
    c.vrng (c.cen b k) = c.lagRange := by
  unfold cen
  rw [c.vrng_comp b k 1 hb hk (by omega)]
  simpa using c.ordered_window ho k

/-! ## The invariant -/

/-- All ranges are non-empty. -/
def VRangesOk : Prop := ∀ i < c.numParams, (c.vrng i).1 ≤ (c.vrng i).2

/-- The invariant of the particles. -/
structure VInv (pm : ℕ → ℝ) : Prop where
  range : ∀ i < c.numParams, c.vfix i = none → (c.vrng i).1 ≤ pm i ∧ pm i ≤ (c.vrng i).2
  fixed : ∀ i v, i < c.numParams → c.vfix i = some v → pm i = v
  order : c.ordered → ∀ b < c.nblocks,
    (∀ k < c.ng, c.lagRange.1 ≤ pm (c.cen b k) ∧ pm (c.cen b k) ≤ c.lagRange.2) ∧
    ∀ k, k + 1 < c.ng → pm (c.cen b k) ≤ pm (c.cen b (k + 1))

theorem vDrawVar_ok (d : LineDraw) (mem : ℕ → ℝ) (n : ℕ)
    (hr : ∀ i < n, (c.vrng i).1 ≤ (c.vrng i).2) :
    ∃ pm, c.vDrawVar d n mem = .ok pm ∧ ∀ i < n, (c.vrng i).1 ≤ pm i ∧ pm i ≤ (c.vrng i).2 := by
  induction n with
  | zero => exact ⟨mem, rfl, by simp⟩
  | succ n ih =>
    obtain ⟨pm, h1, h2⟩ := ih fun i hi => hr i (by omega)
    obtain ⟨x, hx, hx1, hx2⟩ := dnestWrap_le (d.z n * ((c.vrng n).2 - (c.vrng n).1)) _ _
      (hr n (by omega))
    refine ⟨Function.update pm n x, by simp [vDrawVar, h1, hx], fun i hi => ?_⟩
    by_cases e : i = n
    · subst e; simp [hx1, hx2]
    · rw [Function.update_of_ne e]; exact h2 i (by omega)

theorem vFromPrior_inv (hok : c.vOk) (d : LineDraw) (mem : ℕ → ℝ) (hd : DrawOk d)
    (hr : c.VRangesOk) (hz : c.ordered → c.lagRange.1 = 0) (hpos : c.posivity = false) :
    ∃ pm, c.vFromPrior d mem = .ok pm ∧ c.VInv pm := by
  have hnv : c.numVar ≤ c.numParams := by unfold numParams; omega
  obtain ⟨p0, h0, h0r⟩ := c.vDrawVar_ok d mem c.numVar fun i hi => hr i (by omega)
  have h1r : ∀ i < c.numParams, (c.vrng i).1 ≤ c.vDrawLine d p0 i ∧
      c.vDrawLine d p0 i ≤ (c.vrng i).2 := by
    intro i hi
    unfold vDrawLine
    split
    · have := hr i hi
      have hu := hd i
      constructor
      · have := mul_nonneg hu.1 (sub_nonneg.2 this); linarith
      · have := mul_le_mul_of_nonneg_right hu.2 (sub_nonneg.2 this); linarith
    · rename_i hn
      exact h0r i (by omega)
  generalize hp1 : c.vDrawLine d p0 = p1 at *
  have h2 : (∀ i < c.numParams, (c.vrng i).1 ≤ c.sortAll p1 i ∧ c.sortAll p1 i ≤ (c.vrng i).2) ∧
      (c.ordered → ∀ b < c.nblocks,
        (∀ k < c.ng, c.lagRange.1 ≤ c.sortAll p1 (c.cen b k) ∧
          c.sortAll p1 (c.cen b k) ≤ c.lagRange.2) ∧
        ∀ k, k + 1 < c.ng → c.sortAll p1 (c.cen b k) ≤ c.sortAll p1 (c.cen b (k + 1))) := by
    unfold sortAll
    by_cases ho : c.ordered
    · simp only [ho, if_true, numLine_div]
      have hin : ∀ b < c.nblocks, ∀ k < c.ng, c.lagRange.1 ≤ p1 (c.cen b k) ∧
          p1 (c.cen b k) ≤ c.lagRange.2 := by
        intro b hb k hk
        have h := h1r _ (c.cen_lt hb hk)
        rwa [c.vrng_cen ho b k hb hk] at h
      obtain ⟨g1, g2⟩ := c.sortLoop_spec p1 c.nblocks _ _ hin
      refine ⟨fun i hi => ?_, fun _ => g2⟩
      by_cases hc : ∃ b < c.nblocks, ∃ k < c.ng, i = c.cen b k
      · obtain ⟨b, hb, k, hk, rfl⟩ := hc
        rw [c.vrng_cen ho b k hb hk]; exact (g2 b hb).1 k hk
      · push Not at hc
        rw [g1 i hc]; exact h1r i hi
    · simp only [ho]
      exact ⟨h1r, fun h => absurd h (by simp)⟩
  have hposA : c.vPosAll d (c.sortAll p1) = c.sortAll p1 := by simp [vPosAll, hpos]
  refine ⟨c.vPutFixed (c.sortAll p1), ?_, ?_, ?_, ?_⟩
  · simp only [vFromPrior, hok, h0, Res.ok_bind, hp1, hposA]; rfl
  · intro i hi hn
    simp only [vPutFixed, hn]; exact h2.1 i hi
  · intro i v hi hv
    simp only [vPutFixed, hv]
  · intro ho b hb
    obtain ⟨g1, g2⟩ := h2.2 ho b hb
    generalize c.sortAll p1 = p2 at *
    have hlr : c.lagRange.1 ≤ c.lagRange.2 := by
      have hng : 1 < c.ng := by unfold ordered at ho; simp at ho; exact ho.2
      have := g1 0 (by omega)
      linarith
    have hval : ∀ k < c.ng, c.vPutFixed p2 (c.cen b k) = p2 (c.cen b k) ∨
        (k = 0 ∧ c.vPutFixed p2 (c.cen b k) = c.lagRange.1) := by
      intro k hk
      rcases hf : c.vfix (c.cen b k) with _ | v
      · left; simp only [vPutFixed, hf]
      · right
        obtain ⟨e1, e2⟩ := c.vfix_cen hok hk hf
        exact ⟨e1, by simp only [vPutFixed, hf, e2, hz ho]⟩
    refine ⟨fun k hk => ?_, fun k hk => ?_⟩
    · rcases hval k hk with h | ⟨-, h⟩ <;> rw [h]
      · exact g1 k hk
      · exact ⟨le_rfl, hlr⟩
    · rcases hval (k + 1) hk with h' | ⟨h', -⟩
      · rw [h']
        rcases hval k (by omega) with h | ⟨-, h⟩ <;> rw [h]
        · exact g2 k hk
        · exact (g1 (k + 1) hk).1
      · omega

/-- The bounds of a move, as in the line mode. -/
theorem vBounds_ok {pm : ℕ → ℝ} (hi : c.VInv pm) (hr : c.VRangesOk) (w : ℕ) (hw : w < c.numParams) :
    (c.vBounds pm w).1 ≤ (c.vBounds pm w).2 ∧ (c.vrng w).1 ≤ (c.vBounds pm w).1 ∧
      (c.vBounds pm w).2 ≤ (c.vrng w).2 ∧
    (c.ordered → ∀ b < c.nblocks, ∀ k < c.ng, w = c.cen b k →
      (0 < k → pm (c.cen b (k - 1)) ≤ (c.vBounds pm w).1) ∧
      (k + 1 < c.ng → (c.vBounds pm w).2 ≤ pm (c.cen b (k + 1)))) := by
  by_cases ho : c.ordered = true
  swap
  · have : c.vBounds pm w = c.vrng w := by simp [vBounds, ho]
    rw [this]; exact ⟨hr w hw, le_rfl, le_rfl, fun h => absurd h ho⟩
  have hng : 1 < c.ng := by unfold ordered at ho; simp at ho; exact ho.2
  by_cases hv : c.numVar ≤ w
  swap
  · have : c.vBounds pm w = c.vrng w := by simp [vBounds, hv]
    rw [this]; refine ⟨hr w hw, le_rfl, le_rfl, fun _ b _ k _ e => ?_⟩
    unfold cen at e; omega
  have hb : c.vBounds pm w = c.vOrderedBounds pm w := by simp [vBounds, hv, ho]
  rw [hb]
  obtain ⟨b, q, hbn, hq, rfl⟩ := c.addr_split hv hw
  rcases c.offset_cases hq with rfl | ⟨k, t, hk, ht, rfl⟩
  · have hrole := c.role_err b
    have : c.vOrderedBounds pm (c.blk * b + c.numVar + 0) = c.vrng (c.blk * b + c.numVar + 0) := by
      unfold vOrderedBounds
      rw [if_neg]
      rw [Nat.add_zero, hrole]; omega
    rw [this]
    refine ⟨hr _ hw, le_rfl, le_rfl, fun _ b' _ k _ e => ?_⟩
    unfold cen at e
    have := block_addr_inj (B := c.blk) (b := b) (b' := b') (q := 0)
      (q' := 1 + 3 * k + 1) (c.blk_pos) (by unfold blk; omega) (by omega)
    omega
  · obtain ⟨hrole, hcomp⟩ := c.role_comp b k t hk ht
    by_cases ht1 : t = 1
    · subst ht1
      obtain ⟨g1, g2⟩ := hi.order ho b hbn
      have hrng : c.vrng (c.blk * b + c.numVar + (1 + 3 * k + 1)) = c.lagRange :=
        c.vrng_cen ho b k hbn hk
      have hp : c.blk * b + c.numVar + (1 + 3 * k + 1) + 3 = c.cen b (k + 1) := by
        unfold cen; omega
      have hm : 0 < k → c.blk * b + c.numVar + (1 + 3 * k + 1) - 3 = c.cen b (k - 1) := by
        intro h; unfold cen; omega
      have hinj : ∀ b' < c.nblocks, ∀ k' < c.ng,
          c.blk * b + c.numVar + (1 + 3 * k + 1) = c.cen b' k' → b' = b ∧ k' = k := by
        intro b' _ k' hk' e
        have := c.cen_inj (b := b) (b' := b') hk hk' e
        exact ⟨this.1.symm, this.2.symm⟩
      unfold vOrderedBounds
      rw [if_pos (by rw [hrole]; rfl), hrng, hcomp, hp]
      by_cases k0 : k = 0
      · subst k0
        rw [if_pos (show ((0 : ℕ) : Int) = 0 from rfl)]
        refine ⟨(g1 1 hng).1, le_rfl, (g1 1 hng).2, fun _ b' hb' k' hk' e => ?_⟩
        obtain ⟨rfl, rfl⟩ := hinj b' hb' k' hk' e
        exact ⟨fun h => absurd h (by omega), fun _ => le_rfl⟩
      · rw [if_neg (by exact_mod_cast k0), hm (by omega)]
        have gm := g1 (k - 1) (by omega)
        have gk := g2 (k - 1) (by omega)
        rw [Nat.sub_add_cancel (by omega)] at gk
        by_cases kl : k + 1 < c.ng
        · rw [if_pos (by omega)]
          refine ⟨le_trans gk (g2 k kl), gm.1, (g1 (k + 1) kl).2, fun _ b' hb' k' hk' e => ?_⟩
          obtain ⟨rfl, rfl⟩ := hinj b' hb' k' hk' e
          exact ⟨fun _ => le_rfl, fun _ => le_rfl⟩
        · rw [if_neg (by omega)]
          refine ⟨gm.2, gm.1, le_rfl, fun _ b' hb' k' hk' e => ?_⟩
          obtain ⟨rfl, rfl⟩ := hinj b' hb' k' hk' e
          exact ⟨fun _ => le_rfl, fun h => absurd h kl⟩
    · have : c.vOrderedBounds pm (c.blk * b + c.numVar + (1 + 3 * k + t)) =
          c.vrng (c.blk * b + c.numVar + (1 + 3 * k + t)) := by
        unfold vOrderedBounds
        rw [if_neg]
        rw [hrole]; exact_mod_cast ht1
      rw [this]
      refine ⟨hr _ hw, le_rfl, le_rfl, fun _ b' _ k' hk' e => ?_⟩
      unfold cen at e
      have := block_addr_inj (B := c.blk) (b := b) (b' := b') (q := 1 + 3 * k + t)
        (q' := 1 + 3 * k' + 1) (by unfold blk; omega) (by unfold blk; omega) (by omega)
      omega

theorem vMove_inv {pm : ℕ → ℝ} (hi : c.VInv pm) (hr : c.VRangesOk)
    (w : Fin c.numParams) (hw : c.vfix w = none) (x : ℝ) (hx1 : (c.vBounds pm w).1 ≤ x)
    (hx2 : x ≤ (c.vBounds pm w).2) : c.VInv (Function.update pm w x) := by
  obtain ⟨hb1, hb2, hb3, hb4⟩ := c.vBounds_ok hi hr w w.2
  refine ⟨?_, ?_, ?_⟩
  · intro i hil hn
    by_cases e : i = w
    · subst e; rw [Function.update_self]; exact ⟨le_trans hb2 hx1, le_trans hx2 hb3⟩
    · rw [Function.update_of_ne e]; exact hi.range i hil hn
  · intro i v hil hv
    have e : i ≠ w := by rintro rfl; rw [hw] at hv; exact absurd hv (by simp)
    rw [Function.update_of_ne e]; exact hi.fixed i v hil hv
  · intro ho b hb
    obtain ⟨g1, g2⟩ := hi.order ho b hb
    refine ⟨fun k hk => ?_, fun k hk => ?_⟩
    · by_cases e : c.cen b k = w
      · rw [e, Function.update_self]
        have hrng : c.vrng w = c.lagRange := by
          rw [← e]; exact c.vrng_cen ho b k hb hk
        rw [← hrng]; exact ⟨le_trans hb2 hx1, le_trans hx2 hb3⟩
      · rw [Function.update_of_ne e]; exact g1 k hk
    · by_cases e : c.cen b k = w
      · have e' : c.cen b (k + 1) ≠ w := by
          rw [← e]; intro h; have := c.cen_inj hk (by omega) h; omega
        rw [e, Function.update_self, Function.update_of_ne e']
        exact le_trans hx2 ((hb4 ho b hb k (by omega) e.symm).2 hk)
      · rw [Function.update_of_ne e]
        by_cases e' : c.cen b (k + 1) = w
        · rw [e', Function.update_self]
          have := (hb4 ho b hb (k + 1) hk e'.symm).1 (by omega)
          exact le_trans this hx1
        · rw [Function.update_of_ne e']; exact g2 k hk

theorem vPerturb_inv {pm : ℕ → ℝ} (hi : c.VInv pm) (hr : c.VRangesOk)
    (s : ConStep c.numParams) {r : (ℕ → ℝ) × Fl} (h : c.vPerturb s pm = .ok r) : c.VInv r.1 := by
  obtain ⟨w, hw, x, hx, h1, -⟩ := c.vPerturb_ok h
  obtain ⟨hb1, -⟩ := c.vBounds_ok hi hr w w.2
  obtain ⟨y, hy, h2, h3⟩ := dnestWrap_le (pm w + s.h * c.vStepWidth s w) _ _ hb1
  rw [hy] at hx
  simp only [Res.ok.injEq] at hx; subst hx
  rw [h1]
  exact c.vMove_inv hi hr w (c.vPick_free hw) y h2 h3

theorem vLogH_total (hg : c.gap → ∀ i < c.nl.length, 0 < c.nl.getD i 0) (pm q : ℕ → ℝ) (w : ℕ) :
    ∃ l, c.vLogH pm q w = .ok l := by
  unfold vLogH
  split
  · exact ⟨_, rfl⟩
  · by_cases hgap : c.gap
    · obtain ⟨i, h, -⟩ := c.getIdxSetLoop_ok w c.nl.length le_rfl (hg hgap)
      simp only [hgap, if_true, checkGap, getIdxSet, h, Res.ok_bind]
      exact ⟨_, rfl⟩
    · simp only [hgap]; exact ⟨_, rfl⟩

theorem vPerturb_total {pm : ℕ → ℝ} (hi : c.VInv pm) (hr : c.VRangesOk)
    (hg : c.gap → ∀ i < c.nl.length, 0 < c.nl.getD i 0) (s : ConStep c.numParams) :
    c.vPerturb s pm = .hang ∨ ∃ r, c.vPerturb s pm = .ok r := by
  unfold vPerturb
  rcases hw : c.vPick s.cands with w | _ | _ | _
  · simp only [Res.ok_bind]
    obtain ⟨hb1, -⟩ := c.vBounds_ok hi hr w w.2
    obtain ⟨y, hy, h1, h2⟩ := dnestWrap_le (pm w + s.h * c.vStepWidth s w) _ _ hb1
    obtain ⟨l, hl⟩ := c.vLogH_total hg pm (Function.update pm (↑w) y) w
    right
    rw [hy, Res.ok_bind, hl]
    exact ⟨_, rfl⟩
  · exact absurd hw (c.vPick_not_exit _).1
  · exact absurd hw (c.vPick_not_exit _).2
  · left; rfl

theorem vOk_pos (hok : c.vOk) : ∀ i < c.nl.length, 0 < c.nl.getD i 0 := by
  intro i hi
  unfold vOk at hok
  rw [List.all_eq_true] at hok
  rw [List.getD_eq_getElem _ _ hi]
  simpa using hok _ (List.getElem_mem hi)

theorem vRun_inv (L : (ℕ → ℝ) → Fl) (hr : c.VRangesOk) (hok : c.vOk)
    (es : List (VEvent c.numParams)) (ps : ℕ → ℕ → ℝ) (hi : ∀ p, c.VInv (ps p)) :
    (c.vRun L es ps = .hang ∨ ∃ qs, c.vRun L es ps = .ok qs) ∧
    ∀ qs, c.vRun L es ps = .ok qs → ∀ p, c.VInv (qs p) := by
  induction es generalizing ps with
  | nil => exact ⟨Or.inr ⟨ps, rfl⟩, fun qs h => by simp only [vRun, Res.ok.injEq] at h; subst h; exact hi⟩
  | cons e es ih =>
    unfold vRun
    cases e with
    | copy i j =>
      simp only [vStep, Res.ok_bind]
      refine ih _ fun p => ?_
      by_cases h : p = i
      · subst h; rw [Function.update_self]; exact hi j
      · rw [Function.update_of_ne h]; exact hi p
    | update i s u l =>
      simp only [vStep]
      rcases c.vPerturb_total (hi i) hr (fun _ => c.vOk_pos hok) s with h | ⟨r, h⟩
      · rw [h]; exact ⟨Or.inl rfl, fun qs hq => absurd hq (by simp)⟩
      · rw [h]
        simp only [Res.ok_bind, Res.pure_eq]
        refine ih _ fun p => ?_
        split
        · by_cases e : p = i
          · subst e; rw [Function.update_self]; exact c.vPerturb_inv (hi p) hr s h
          · rw [Function.update_of_ne e]; exact hi p
        · exact hi p

end LineCfg
end Mica
