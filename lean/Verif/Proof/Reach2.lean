import Verif.Proof.Reach
import Verif.Proof.LineInv2
import Mathlib.Data.Fintype.Card

/-! Paths of proposals of the continuum and the line model. -/

namespace Mica

/-! ## Continuum -/

theorem conStep0 {n : ℕ} (c : ConCfg n) (w : Fin n) (hw : c.fix w = none) (x : Fin n → ℝ) (v : ℝ)
    (h1 : c.lo w ≤ v) (h2 : v < c.hi w) : Step0 (conPerturb c) x (Function.update x w v) := by
  intro size lim
  have hpos : c.hi w - c.lo w ≠ 0 := by intro h; linarith
  refine ⟨[w], (v - x w) / (c.hi w - c.lo w), 0, ?_⟩
  have hwid : conWidth c ⟨[w], (v - x w) / (c.hi w - c.lo w), 0, size, lim⟩ w = c.hi w - c.lo w := by
    unfold conWidth
    dsimp only
    rw [if_neg]
    split <;> omega
  unfold conPerturb perturbCon
  simp only [pickFree, hw, Option.isSome_none, Bool.false_eq_true, if_false, Res.ok_bind]
  rw [hwid]
  have : x w + (v - x w) / (c.hi w - c.lo w) * (c.hi w - c.lo w) = v := by
    rw [div_mul_cancel₀ _ hpos]; ring
  rw [this, C01_wrap_id _ _ _ h1 h2]
  rfl

/-- Points of the prior of the continuum model. -/
def ConPoint {n : ℕ} (c : ConCfg n) (x : Fin n → ℝ) : Prop :=
  (∀ i, c.fix i = none → c.lo i ≤ x i ∧ x i ≤ c.hi i) ∧ ∀ i v, c.fix i = some v → x i = v

theorem conPath {n : ℕ} (c : ConCfg n) (x y : Fin n → ℝ) (hx : ConPoint c x) (hy : ConPoint c y)
    (hlt : ∀ i, c.fix i = none → c.lo i < c.hi i → y i < c.hi i) :
    Relation.ReflTransGen (fun a b => Step0 (conPerturb c) a b ∧ b ∈ {z | ConPoint c z}) x y := by
  classical
  generalize hN : (Finset.univ.filter fun i => x i ≠ y i).card = N
  induction N generalizing x with
  | zero =>
    have : x = y := by
      funext i
      by_contra h
      have : i ∈ Finset.univ.filter fun i => x i ≠ y i := by simp [h]
      rw [Finset.card_eq_zero] at hN
      rw [hN] at this; simp at this
    rw [this]
  | succ N ih =>
    obtain ⟨w, hw⟩ : (Finset.univ.filter fun i => x i ≠ y i).Nonempty := by
      rw [← Finset.card_pos]; omega
    have hne : x w ≠ y w := by simpa using hw
    have hf : c.fix w = none := by
      rcases h : c.fix w with _ | v
      · rfl
      · exact absurd ((hx.2 w v h).trans (hy.2 w v h).symm) hne
    have hz : ConPoint c (Function.update x w (y w)) := by
      refine ⟨fun i hi => ?_, fun i v hi => ?_⟩
      · by_cases e : i = w
        · subst e; rw [Function.update_self]; exact hy.1 i hi
        · rw [Function.update_of_ne e]; exact hx.1 i hi
      · have e : i ≠ w := by rintro rfl; rw [hf] at hi; cases hi
        rw [Function.update_of_ne e]; exact hx.2 i v hi
    have hrange : c.lo w < c.hi w := by
      obtain ⟨a1, a2⟩ := hx.1 w hf
      obtain ⟨b1, b2⟩ := hy.1 w hf
      rcases lt_or_gt_of_ne hne with h | h <;> linarith
    refine Relation.ReflTransGen.head ⟨conStep0 c w hf x (y w) (hy.1 w hf).1 (hlt w hf hrange), hz⟩
      (ih _ hz ?_)
    have : (Finset.univ.filter fun i => Function.update x w (y w) i ≠ y i) =
        (Finset.univ.filter fun i => x i ≠ y i).erase w := by
      ext i
      simp only [Finset.mem_filter, Finset.mem_univ, true_and, Finset.mem_erase]
      by_cases e : i = w
      · subst e; simp
      · rw [Function.update_of_ne e]; simp [e]
    rw [this, Finset.card_erase_of_mem hw, hN]; rfl

/-! ## Lines -/

namespace LineCfg
variable (c : LineCfg)

theorem extend_lt {n : ℕ} (x : Fin n → ℝ) (i : Fin n) : extendVec x i = x i := by
  unfold extendVec; rw [dif_pos i.2]

theorem shared_alloc (hs : c.SharedOk) (hu : c.uniTf = 2) {p : ℕ × ℕ} (hp : p ∈ c.shared) :
    p.1 < c.numParams ∧ p.2 < c.numParams := by
  obtain ⟨i, j, k, t, hi, hj, hj0, hk, ht, h1, h2⟩ := c.shared_spec hu hs (a := p.1) (a' := p.2) hp
  exact ⟨h1 ▸ c.addr_lt (c.bno_lt _ _ hj) (by unfold blk; omega),
    h2 ▸ c.addr_lt (c.bno_lt _ _ hj0) (by unfold blk; omega)⟩

/-- The invariant looks only at the allocated parameters. -/
theorem Inv.congr {c : LineCfg} (hs : c.SharedOk) {p q : ℕ → ℝ} (h : c.Inv p)
    (e : ∀ i < c.numParams, q i = p i) : c.Inv q := by
  refine ⟨fun i hi hn => ?_, fun i v hi hv hns => ?_, fun hu r hr => ?_, fun ho b hb => ?_⟩
  · rw [e i hi]; exact h.range i hi hn
  · rw [e i hi]; exact h.fixed i v hi hv hns
  · obtain ⟨h1, h2⟩ := c.shared_alloc hs hu hr
    rw [e _ h1, e _ h2]; exact h.copy hu r hr
  · obtain ⟨g1, g2⟩ := h.order ho b hb
    refine ⟨fun k hk => ?_, fun k hk => ?_⟩
    · rw [e _ (c.cen_lt hb hk)]; exact g1 k hk
    · rw [e _ (c.cen_lt hb (by omega)), e _ (c.cen_lt hb hk)]; exact g2 k hk

/-- Two vectors with the invariant agree if their free parameters do. -/
theorem Inv.ext {c : LineCfg} (hs : c.SharedOk) {p q : ℕ → ℝ} (hp : c.Inv p) (hq : c.Inv q)
    (e : ∀ i < c.numParams, c.fix i = none → p i = q i) : ∀ i < c.numParams, p i = q i := by
  have base : ∀ i < c.numParams, (c.uniTf = 2 → ∀ r ∈ c.shared, r.1 ≠ i) → p i = q i := by
    intro i hi hns
    rcases h : c.fix i with _ | v
    · exact e i hi h
    · rw [hp.fixed i v hi h hns, hq.fixed i v hi h hns]
  intro i hi
  by_cases hns : c.uniTf = 2 → ∀ r ∈ c.shared, r.1 ≠ i
  · exact base i hi hns
  · push Not at hns
    obtain ⟨hu, r, hr, rfl⟩ := hns
    rw [hp.copy hu r hr, hq.copy hu r hr]
    exact base _ (c.shared_alloc hs hu hr).2 fun _ r' hr' h => c.shared_source hu hs r hr r' hr' h.symm

/-- A single free parameter can be put anywhere within its current bounds. -/
theorem lineStep0 (hr : c.RangesOk) (hs : c.SharedOk)
    (hg : c.gap → ∀ i < c.nl.length, 0 < c.nl.getD i 0) (x : Fin c.numParams → ℝ)
    (hx : c.Inv (extendVec x)) (w : Fin c.numParams) (hw : c.fix w = none) (v : ℝ)
    (h1 : (c.bounds (extendVec x) w).1 ≤ v) (h2 : v < (c.bounds (extendVec x) w).2) :
    ∃ x', Step0 (linePerturb c) x x' ∧ c.Inv (extendVec x') ∧ x' w = v ∧
      ∀ i, i ≠ w → c.fix i = none → x' i = x i := by
  obtain ⟨hb1, hb2, hb3, -⟩ := c.bounds_ok hx hr w w.2
  have hpos : (c.rng w).2 - (c.rng w).1 ≠ 0 := by intro h; linarith
  obtain ⟨q, hq, hqi⟩ := c.move_inv hx hr hs w hw v h1 h2.le
  obtain ⟨q', hq', hfree, -⟩ := c.share_ok hs (Function.update (extendVec x) w v)
  have hqq : q' = q := by rw [hq, Res.ok.injEq] at hq'; exact hq'.symm
  subst hqq
  have hfree' : ∀ i : Fin c.numParams, c.fix i = none → q' i = Function.update (extendVec x) w v i := by
    intro i hi
    refine hfree i fun hu r hr' e => ?_
    exact c.fix_shared hu hr' (by rw [e]; exact hi)
  obtain ⟨l, hl⟩ : ∃ l, c.moveLogH (extendVec x) (Function.update (extendVec x) (↑w) v) w = .ok l := by
    unfold moveLogH
    split
    · exact ⟨_, rfl⟩
    · by_cases hgap : c.gap
      · obtain ⟨i, h, -⟩ := c.getIdxSetLoop_ok w c.nl.length le_rfl (hg hgap)
        simp only [hgap, if_true, checkGap, getIdxSet, h, Res.ok_bind]
        exact ⟨_, rfl⟩
      · simp only [hgap]; exact ⟨_, rfl⟩
  refine ⟨fun i => q' i, fun size lim => ?_, ?_, ?_, fun i hi hf => ?_⟩
  · refine ⟨[w], (v - extendVec x w) / ((c.rng w).2 - (c.rng w).1), l, ?_⟩
    have hwid : ∀ a b : ℤ, 0 ≤ a → c.stepWidth a b
        ⟨[w], (v - extendVec x w) / ((c.rng w).2 - (c.rng w).1), 0, size, lim⟩ w
        = (c.rng w).2 - (c.rng w).1 := by
      intro a b ha
      unfold stepWidth
      dsimp only
      rw [if_neg]
      split <;> omega
    unfold linePerturb perturb
    simp only [pick, hw, Option.isSome_none, Bool.false_eq_true, if_false, Res.ok_bind]
    rw [hwid 0 10 (by omega), hwid 5 15 (by omega), ite_self]
    have : extendVec x w + (v - extendVec x w) / ((c.rng w).2 - (c.rng w).1) *
        ((c.rng w).2 - (c.rng w).1) = v := by
      rw [div_mul_cancel₀ _ hpos]; ring
    rw [this, C01_wrap_id _ _ _ h1 h2, Res.ok_bind, hl, Res.ok_bind, hq]
    rfl
  · exact hqi.congr hs fun i hi => by unfold extendVec; rw [dif_pos hi]
  · show q' w = v
    rw [hfree' w hw, Function.update_self]
  · show q' i = x i
    have : (i : ℕ) ≠ w := fun h => hi (Fin.ext h)
    rw [hfree' i hf, Function.update_of_ne this, extend_lt]

/-- In the ordered prior either all lags of a line are free or none. -/
theorem cen_free_all (ho : c.ordered) (hs : c.SharedOk) {b k k' : ℕ}
    (hk : k < c.ng) (hk' : k' < c.ng) (h : c.fix (c.cen b k) = none) : c.fix (c.cen b k') = none := by
  by_contra hne
  obtain ⟨hu, s, hsh⟩ := c.fix_cen_ordered ho hk' hne
  obtain ⟨i, j, k2, t, hi, hj, hj0, hk2, ht, h1, h2⟩ := c.shared_spec hu hs hsh
  unfold cen at h1
  have hbb := block_addr_inj (B := c.blk) (b := b) (b' := c.bno i j) (q := 1 + 3 * k' + 1)
    (q' := 1 + 3 * k2 + t) (by unfold blk; omega) (by unfold blk; omega) (by omega)
  have := c.shared_mk hu hs hi hj hk (t := 1) (Or.inl rfl)
  rw [← hbb.1] at this
  exact c.fix_shared hu this h

/-- The bounds of a lag of the ordered prior. -/
theorem bounds_lag (ho : c.ordered) (pm : ℕ → ℝ) {b k : ℕ} (hb : b < c.nblocks) (hk : k < c.ng) :
    c.bounds pm (c.cen b k) =
      (if k = 0 then c.lagRange.1 else pm (c.cen b (k - 1)),
       if k + 1 < c.ng then pm (c.cen b (k + 1)) else c.lagRange.2) := by
  have hng : 1 < c.ng := by unfold ordered at ho; simp at ho; exact ho.2
  have hv : c.numVar ≤ c.cen b k := by unfold cen; omega
  have hB : c.bounds pm (c.cen b k) = c.orderedBounds pm (c.cen b k) := by simp [bounds, hv, ho]
  have hrng : c.rng (c.cen b k) = c.lagRange := by
    unfold cen; rw [c.rng_lag b k hb hk, c.ordered_window ho]
  obtain ⟨hrole, hcomp⟩ := c.role_comp b k 1 hk (by omega)
  have hp : c.cen b k + 3 = c.cen b (k + 1) := by unfold cen; omega
  have hm : 0 < k → c.cen b k - 3 = c.cen b (k - 1) := by intro h; unfold cen; omega
  have hrole' : c.roleOf (c.cen b k) = 1 := hrole
  have hcomp' : c.compOf (c.cen b k) = k := hcomp
  rw [hB]
  unfold orderedBounds
  rw [if_pos hrole', hrng, hcomp', hp]
  by_cases k0 : k = 0
  · subst k0
    simp [hng]
  · rw [if_neg (by exact_mod_cast k0), hm (by omega), if_neg k0]
    by_cases kl : k + 1 < c.ng
    · rw [if_pos (by omega), if_pos kl]
    · rw [if_neg (by omega), if_neg kl]

/-- Outside the ordered lags the bounds are the prior range. -/
theorem bounds_plain (pm : ℕ → ℝ) (w : ℕ) (hw : w < c.numParams)
    (h : ¬ (c.ordered = true ∧ ∃ b k, b < c.nblocks ∧ k < c.ng ∧ w = c.cen b k)) :
    c.bounds pm w = c.rng w := by
  by_cases ho : c.ordered = true
  swap
  · simp [bounds, ho]
  by_cases hv : c.numVar ≤ w
  swap
  · simp [bounds, hv]
  have hb : c.bounds pm w = c.orderedBounds pm w := by simp [bounds, hv, ho]
  rw [hb]
  obtain ⟨b, q, hbn, hq, rfl⟩ := c.addr_split hv hw
  rcases c.offset_cases hq with rfl | ⟨k, t, hk, ht, rfl⟩
  · have hrole := c.role_err b
    unfold orderedBounds
    rw [if_neg]
    rw [Nat.add_zero, hrole]; omega
  · obtain ⟨hrole, hcomp⟩ := c.role_comp b k t hk ht
    have ht1 : t ≠ 1 := by
      rintro rfl
      exact h ⟨ho, b, k, hbn, hk, rfl⟩
    unfold orderedBounds
    rw [if_neg]
    rw [hrole]; exact_mod_cast ht1

/-- A target: free parameters below the upper ends of their ranges (unless the range is one point), lags of the ordered prior strictly
ordered. -/
structure Target (y : ℕ → ℝ) : Prop where
  inv : c.Inv y
  below : ∀ i < c.numParams, c.fix i = none → (c.rng i).1 < (c.rng i).2 → y i < (c.rng i).2
  strict : c.ordered → ∀ b < c.nblocks, ∀ k, k + 1 < c.ng → y (c.cen b k) < y (c.cen b (k + 1))

/-- If a free parameter differs from the target, some free parameter differs whose target value is
within its current bounds. -/
theorem choose_move (hs : c.SharedOk) {pm y : ℕ → ℝ} (hi : c.Inv pm) (hy : c.Target y) (w : ℕ)
    (hw : w < c.numParams) (hf : c.fix w = none) (hne : pm w ≠ y w) :
    ∃ w' < c.numParams, c.fix w' = none ∧ pm w' ≠ y w' ∧ (c.bounds pm w').1 ≤ y w' ∧
      y w' < (c.bounds pm w').2 := by
  by_cases h : ¬ (c.ordered = true ∧ ∃ b k, b < c.nblocks ∧ k < c.ng ∧ w = c.cen b k)
  · refine ⟨w, hw, hf, hne, ?_⟩
    rw [c.bounds_plain pm w hw h]
    refine ⟨(hy.inv.range w hw hf).1, hy.below w hw hf ?_⟩
    obtain ⟨a1, a2⟩ := hi.range w hw hf
    obtain ⟨b1, b2⟩ := hy.inv.range w hw hf
    rcases lt_or_gt_of_ne hne with h | h <;> linarith
  push Not at h
  obtain ⟨ho, b, k, hb, hk, rfl⟩ := h
  have hfree : ∀ k' < c.ng, c.fix (c.cen b k') = none := fun k' hk' => c.cen_free_all ho hs hk hk' hf
  have hrng : ∀ k' < c.ng, c.rng (c.cen b k') = c.lagRange := fun k' hk' => by
    unfold cen; rw [c.rng_lag b k' hb hk', c.ordered_window ho]
  obtain ⟨g1, g2⟩ := hi.order ho b hb
  have ylo := fun k' (hk' : k' < c.ng) => ((hy.inv.order ho b hb).1 k' hk').1
  have ys := hy.strict ho b hb
  have hlr : c.lagRange.1 < c.lagRange.2 := by
    have hng : 1 < c.ng := by unfold ordered at ho; simp at ho; exact ho.2
    have h1 := ((hy.inv.order ho b hb).1 0 (by omega)).1
    have h2 := ((hy.inv.order ho b hb).1 1 (by omega)).2
    have h3 := ys 0 (by omega)
    rw [Nat.zero_add] at h3
    linarith
  have yhi : ∀ k' < c.ng, y (c.cen b k') < c.lagRange.2 := fun k' hk' => by
    have := hy.below _ (c.cen_lt hb hk') (hfree k' hk') (by rw [hrng k' hk']; exact hlr)
    rwa [hrng k' hk'] at this
  classical
  by_cases hup : ∃ k', k' < c.ng ∧ pm (c.cen b k') < y (c.cen b k')
  · -- the highest lag that has to go up
    let S := (Finset.range c.ng).filter fun k' => pm (c.cen b k') < y (c.cen b k')
    have hS : S.Nonempty := by
      obtain ⟨k', h1, h2⟩ := hup
      exact ⟨k', by simp [S, h1, h2]⟩
    obtain ⟨hm1, hm2⟩ : S.max' hS < c.ng ∧ pm (c.cen b (S.max' hS)) < y (c.cen b (S.max' hS)) := by
      have := S.max'_mem hS
      simpa [S] using this
    have hmax : ∀ k', k' < c.ng → S.max' hS < k' → y (c.cen b k') ≤ pm (c.cen b k') := by
      intro k' hk' hlt
      by_contra hh
      have : k' ∈ S := by simp [S, hk']; linarith
      have := S.le_max' k' this
      omega
    generalize S.max' hS = j at hm1 hm2 hmax
    refine ⟨c.cen b j, c.cen_lt hb hm1, hfree j hm1, hm2.ne, ?_⟩
    rw [c.bounds_lag ho pm hb hm1]
    constructor
    · dsimp only
      split
      · exact ylo j hm1
      · have := g2 (j - 1) (by omega)
        rw [Nat.sub_add_cancel (by omega)] at this
        linarith
    · dsimp only
      split
      · rename_i hj
        exact lt_of_lt_of_le (ys j hj) (hmax (j + 1) hj (by omega))
      · exact yhi j hm1
  · -- the lowest lag that has to go down
    push Not at hup
    have hex : ∃ k', k' < c.ng ∧ pm (c.cen b k') ≠ y (c.cen b k') := ⟨k, hk, hne⟩
    obtain ⟨hm1, hm2⟩ := Nat.find_spec hex
    have hmin : ∀ k' < Nat.find hex, pm (c.cen b k') = y (c.cen b k') := by
      intro k' hk'
      have := Nat.find_min hex hk'
      by_contra hh
      exact this ⟨by omega, hh⟩
    generalize Nat.find hex = j at hm1 hm2 hmin
    refine ⟨c.cen b j, c.cen_lt hb hm1, hfree j hm1, hm2, ?_⟩
    rw [c.bounds_lag ho pm hb hm1]
    constructor
    · dsimp only
      split
      · exact ylo j hm1
      · rename_i hj0
        rw [hmin (j - 1) (by omega)]
        have := ys (j - 1) (by omega)
        rw [Nat.sub_add_cancel (by omega)] at this
        exact this.le
    · dsimp only
      split
      · rename_i hj
        exact lt_of_lt_of_le (ys j hj) (hup (j + 1) hj)
      · exact yhi j hm1

theorem linePath (hr : c.RangesOk) (hs : c.SharedOk)
    (hg : c.gap → ∀ i < c.nl.length, 0 < c.nl.getD i 0) (x y : Fin c.numParams → ℝ)
    (hx : c.Inv (extendVec x)) (hy : c.Target (extendVec y)) :
    Relation.ReflTransGen
      (fun a b => Step0 (linePerturb c) a b ∧ b ∈ {z | c.Inv (extendVec z)}) x y := by
  classical
  generalize hN : (Finset.univ.filter fun i : Fin c.numParams => c.fix i = none ∧ x i ≠ y i).card = N
  induction N generalizing x with
  | zero =>
    have : x = y := by
      funext i
      have := hx.ext hs hy.inv (fun i hi hf => by
        by_contra h
        have hm : (⟨i, hi⟩ : Fin c.numParams) ∈
            Finset.univ.filter fun i : Fin c.numParams => c.fix i = none ∧ x i ≠ y i := by
          simp only [Finset.mem_filter, Finset.mem_univ, true_and]
          refine ⟨hf, fun e => h ?_⟩
          unfold extendVec; rw [dif_pos hi, dif_pos hi, e]
        rw [Finset.card_eq_zero] at hN
        rw [hN] at hm; simp at hm) i i.2
      rwa [extend_lt, extend_lt] at this
    rw [this]
  | succ N ih =>
    obtain ⟨w0, hw0⟩ :
        (Finset.univ.filter fun i : Fin c.numParams => c.fix i = none ∧ x i ≠ y i).Nonempty := by
      rw [← Finset.card_pos]; omega
    simp only [Finset.mem_filter, Finset.mem_univ, true_and] at hw0
    obtain ⟨w, hw, hf, hne, hb1, hb2⟩ := c.choose_move hs hx hy w0 w0.2 hw0.1
      (by rw [extend_lt, extend_lt]; exact hw0.2)
    lift w to Fin c.numParams using hw
    rw [extend_lt, extend_lt] at hne
    rw [extend_lt y] at hb1 hb2
    obtain ⟨x', hst, hinv, hxw, hxo⟩ := c.lineStep0 hr hs hg x hx w hf (y w) hb1 hb2
    refine Relation.ReflTransGen.head ⟨hst, hinv⟩ (ih x' hinv ?_)
    have : (Finset.univ.filter fun i : Fin c.numParams => c.fix i = none ∧ x' i ≠ y i) =
        (Finset.univ.filter fun i : Fin c.numParams => c.fix i = none ∧ x i ≠ y i).erase w := by
      ext i
      simp only [Finset.mem_filter, Finset.mem_univ, true_and, Finset.mem_erase]
      by_cases e : i = w
      · subst e; simp [hxw]
      · constructor
        · rintro ⟨h1, h2⟩; rw [hxo i e h1] at h2; exact ⟨e, h1, h2⟩
        · rintro ⟨h0, h1, h2⟩; rw [hxo i e h1]; exact ⟨h1, h2⟩
    rw [this, Finset.card_erase_of_mem (by simp [hf, hne]), hN]; rfl

/-- A target can be proposed from itself. -/
theorem lineStay (hr : c.RangesOk) (hs : c.SharedOk)
    (hg : c.gap → ∀ i < c.nl.length, 0 < c.nl.getD i 0) (y : Fin c.numParams → ℝ)
    (hy : c.Target (extendVec y)) (hfree : ∃ i < c.numParams, c.fix i = none ∧ (c.rng i).1 < (c.rng i).2) :
    Step0 (linePerturb c) y y := by
  obtain ⟨w, hw, hf, hlt⟩ := hfree
  have hb : (c.bounds (extendVec y) w).1 ≤ extendVec y w ∧
      extendVec y w < (c.bounds (extendVec y) w).2 := by
    by_cases h : ¬ (c.ordered = true ∧ ∃ b k, b < c.nblocks ∧ k < c.ng ∧ w = c.cen b k)
    · rw [c.bounds_plain _ w hw h]
      exact ⟨(hy.inv.range w hw hf).1, hy.below w hw hf hlt⟩
    push Not at h
    obtain ⟨ho, b, k, hb, hk, rfl⟩ := h
    have hrng : c.rng (c.cen b k) = c.lagRange := by
      unfold cen; rw [c.rng_lag b k hb hk, c.ordered_window ho]
    obtain ⟨g1, g2⟩ := hy.inv.order ho b hb
    rw [c.bounds_lag ho _ hb hk]
    constructor
    · dsimp only
      split
      · exact (g1 k hk).1
      · have := g2 (k - 1) (by omega)
        rwa [Nat.sub_add_cancel (by omega)] at this
    · dsimp only
      split
      · rename_i hj; exact hy.strict ho b hb k hj
      · rw [← hrng]; exact hy.below _ hw hf hlt
  lift w to Fin c.numParams using hw
  rw [extend_lt y] at hb
  obtain ⟨x', hst, hinv, hxw, hxo⟩ := c.lineStep0 hr hs hg y hy.inv w hf (y w) hb.1 hb.2
  have : x' = y := by
    funext i
    have := hinv.ext hs hy.inv (fun i hi hf => by
      lift i to Fin c.numParams using hi
      rw [extend_lt, extend_lt]
      by_cases e : i = w
      · rw [e, hxw]
      · exact hxo i e hf) i i.2
    rwa [extend_lt, extend_lt] at this
  rwa [this] at hst

end LineCfg
end Mica
