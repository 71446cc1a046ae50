import Verif.Props.Kernel
import Verif.Proof.Reorder
import Verif.Proof.TimeUnit2
import Mathlib.Analysis.SpecialFunctions.Gaussian.GaussianIntegral

/-! # Reversal of time: covariance functions and positions -/

namespace Mica

open Matrix MeasureTheory Set

/-- A component with the opposite lag. -/
def Comp.mirror (x : Comp) : Comp := ⟨x.f, -x.c, x.w⟩

theorem erfc_neg (x : ℝ) : erfc (-x) = 2 - erfc x := by
  have hi : Integrable fun u : ℝ => Real.exp (-u ^ 2) := by
    have := integrable_exp_neg_mul_sq (b := 1) one_pos
    simpa using this
  have h1 : ∫ u : ℝ, Real.exp (-u ^ 2) = Real.sqrt Real.pi := by
    have := integral_gaussian 1
    simpa using this
  have h2 : ∫ u in Iic (-x), Real.exp (-u ^ 2) = ∫ u in Ioi x, Real.exp (-u ^ 2) := by
    have := integral_comp_neg_Ioi x fun u : ℝ => Real.exp (-u ^ 2)
    simpa using this.symm
  have h3 := intervalIntegral.integral_Iic_add_Ioi (b := -x) hi.integrableOn hi.integrableOn (f := fun u : ℝ => Real.exp (-u ^ 2)) (μ := volume)
  rw [h1, h2] at h3
  have hp : Real.sqrt Real.pi ≠ 0 := (Real.sqrt_pos.2 Real.pi_pos).ne'
  unfold erfc
  rw [← h3] at hp ⊢
  field_simp
  ring

theorem slcGau_mirror (taud : ℝ) (x : Comp) (Dt : ℝ) : slcGau taud x.mirror (-Dt) = slcGau taud x Dt := by
  simp only [slcGau, Comp.mirror]
  have e : -Dt - -x.c = -(Dt - x.c) := by ring
  rw [e]
  generalize Dt - x.c = D
  rw [add_comm]
  congr 2
  · congr 4; ring
  · congr 3
    · ring
    · congr 1; ring

theorem slcTop_mirror {taud : ℝ} (x : Comp) (hw : 0 < x.w) (Dt : ℝ) :
    slcTop taud x.mirror (-Dt) = slcTop taud x Dt := by
  simp only [slcTop, Comp.mirror]
  congr 1
  have h0 : -Dt - -x.c = -(Dt - x.c) := by ring
  obtain ⟨D, hD⟩ : ∃ D, D = Dt - x.c := ⟨_, rfl⟩
  simp only [h0, ← hD]
  clear h0 hD
  rcases lt_trichotomy D (-x.w) with h | h | h
  · rw [if_neg (by linarith), if_neg (by linarith), if_pos h]
    congr 2 <;> ring_nf
  · subst h
    rw [if_neg (by linarith), if_neg (by linarith), if_neg (by linarith), if_pos (by linarith)]
    rw [show -(-x.w + x.w) / taud = 0 by simp, Real.exp_zero, show -(- -x.w - x.w) / taud = 0 by simp, Real.exp_zero,
      show -(- -x.w + x.w) / taud = (-x.w - x.w) / taud by ring]
    ring
  · rcases lt_trichotomy D x.w with h2 | h2 | h2
    · rw [if_neg (by linarith), if_pos (by linarith), if_neg (by linarith), if_pos h2]
      rw [show -(-D + x.w) / taud = (D - x.w) / taud by ring, show (-D - x.w) / taud = -(D + x.w) / taud by ring]
      ring
    · subst h2
      rw [if_neg (by linarith), if_pos (by linarith), if_neg (by linarith), if_neg (by linarith)]
      rw [show -(-x.w + x.w) / taud = 0 by simp, Real.exp_zero, show -(x.w - x.w) / taud = 0 by simp, Real.exp_zero, show (-x.w - x.w) / taud = -(x.w + x.w) / taud by ring]
      ring
    · rw [if_pos (by linarith), if_neg (by linarith), if_neg (by linarith)]
      congr 2 <;> ring_nf

theorem sllGauGau_mirror (taud : ℝ) (x y : Comp) (Dt : ℝ) :
    sllGauGau taud x.mirror y.mirror (-Dt) = sllGauGau taud x y Dt := by
  simp only [sllGauGau, Comp.mirror]
  have e : -Dt - (-x.c - -y.c) = -(Dt - (x.c - y.c)) := by ring
  rw [e]
  generalize Dt - (x.c - y.c) = D
  rw [add_comm]
  congr 2
  · congr 4; ring
  · congr 3
    · ring
    · congr 1; ring

theorem sllTopTop_mirror {taud : ℝ} (ht : 0 < taud) (x y : Comp) (hx : 0 < x.w) (hy : 0 < y.w) (Dt : ℝ) :
    sllTopTop taud x.mirror y.mirror (-Dt) = sllTopTop taud x y Dt := by
  have h := C36_pair .tophat .tophat ht hx hy Dt (Or.inl (by simp [FarL]))
  simp only [fpSll] at h
  rw [h]
  have e : -Dt - (-x.c - -y.c) = -Dt - (y.c - x.c) := by ring
  have e3 : x.f / x.w * y.f / y.w / 4 * taud * taud = y.f / y.w * x.f / x.w / 4 * taud * taud := by ring
  rcases lt_trichotomy x.w y.w with hw | hw | hw
  · simp only [sllTopTop, Comp.mirror, if_pos hw.le, ge_iff_le, if_neg (not_le.2 hw), e, e3]
  · simp only [sllTopTop, Comp.mirror, hw, e]
    rw [show x.f / y.w * y.f / y.w = y.f / y.w * x.f / y.w by ring]
  · simp only [sllTopTop, Comp.mirror, if_pos hw.le, ge_iff_le, if_neg (not_le.2 hw), e, e3]

theorem sllGauTop_mirror (taud : ℝ) (x y : Comp) (Dt : ℝ) :
    sllGauTop taud x.mirror y.mirror (-Dt) = sllGauTop taud x y Dt := by
  simp only [sllGauTop, Comp.mirror]
  have e : -Dt - (-x.c - -y.c) = -(Dt - (x.c - y.c)) := by ring
  rw [e]
  generalize Dt - (x.c - y.c) = D
  congr 1
  have h1 : erfc ((-y.w + -D) / x.w / Real.sqrt 2) = 2 - erfc ((y.w + D) / x.w / Real.sqrt 2) := by
    rw [← erfc_neg]; congr 1; ring
  have h2 : erfc ((y.w + -D) / x.w / Real.sqrt 2) = 2 - erfc ((-y.w + D) / x.w / Real.sqrt 2) := by
    rw [← erfc_neg]; congr 1; ring
  rw [h1, h2, show y.w - -D = y.w + D by ring, show y.w + -D = y.w - D by ring, show -y.w + -D = -y.w - D by ring,
    show -y.w - -D = -y.w + D by ring, show y.w / taud - -D / taud = y.w / taud + D / taud by ring,
    show y.w / taud + -D / taud = y.w / taud - D / taud by ring, show -y.w / taud + -D / taud = -y.w / taud - D / taud by ring,
    show -y.w / taud - -D / taud = -y.w / taud + D / taud by ring]
  ring

/-- The transfer function does not change when its lag axis is reflected at its centre. -/
def TF.Even (T : TF) : Prop := T = .gauss ∨ T = .tophat

theorem fpSlc_mirror {T : TF} (hT : T.Even) (taud : ℝ) (x : Comp) (hx : 0 < x.w) (Dt : ℝ) :
    fpSlc T taud x.mirror (-Dt) = fpSlc T taud x Dt := by
  rcases hT with rfl | rfl
  · exact slcGau_mirror _ _ _
  · exact slcTop_mirror _ hx _

theorem fpSll_mirror {T T' : TF} (hT : T.Even) (hT' : T'.Even) {taud : ℝ} (ht : 0 < taud) (x y : Comp) (hx : 0 < x.w)
    (hy : 0 < y.w) (Dt : ℝ) : fpSll T T' taud x.mirror y.mirror (-Dt) = fpSll T T' taud x y Dt := by
  rcases hT with rfl | rfl <;> rcases hT' with rfl | rfl <;> simp only [fpSll, sllTopGau]
  · exact sllGauGau_mirror _ _ _ _
  · exact sllGauTop_mirror _ _ _ _
  · exact sllGauTop_mirror _ _ _ _
  · exact sllTopTop_mirror ht _ _ hx hy _

/-- The parameters of a data set with all lags reversed. -/
structure Mirrored (ng : ℕ) (pm pm' : ℕ → ℝ) (idxc : ℕ) (idxl : ℕ → ℕ) : Prop where
  sys : pm' idxc = pm idxc
  sigma : pm' (idxc + 1) = pm (idxc + 1)
  tau : pm' (idxc + 2) = pm (idxc + 2)
  lineSys : ∀ j, pm' (idxl j) = pm (idxl j)
  amp : ∀ j, ∀ k < ng, pm' (idxl j + 1 + 3 * k) = pm (idxl j + 1 + 3 * k)
  lag : ∀ j, ∀ k < ng, pm' (idxl j + 1 + 3 * k + 1) = -pm (idxl j + 1 + 3 * k + 1)
  width : ∀ j, ∀ k < ng, pm' (idxl j + 1 + 3 * k + 2) = pm (idxl j + 1 + 3 * k + 2)

/-- What the reversal needs of the covariance functions. -/
structure Kernels.Mirror (K K' : Kernels) : Prop where
  slc : ∀ t1 t2 j, K'.Slc (-t1) (-t2) j = K.Slc t1 t2 j
  sll : ∀ t1 t2 j, K'.Sll (-t1) (-t2) j = K.Sll t2 t1 j
  sll2 : ∀ t1 t2 j l, K'.Sll2 (-t1) (-t2) j l = K.Sll2 t1 t2 j l

theorem Mirrored.kernels {ng : ℕ} {pm pm' : ℕ → ℝ} {idxc : ℕ} {idxl : ℕ → ℕ} (h : Mirrored ng pm pm' idxc idxl) (lin : Bool)
    (typ : ℕ → TF) (ht : ∀ k < ng, (typ k).Even) :
    Kernels.Mirror (KEnv.mk ng lin typ pm idxc idxl).kernels (KEnv.mk ng lin typ pm' idxc idxl).kernels := by
  have fold : ∀ (l : List ℕ) (f g : ℝ → ℕ → ℝ) (s : ℝ), (∀ s, ∀ k ∈ l, f s k = g s k) → l.foldl f s = l.foldl g s := by
    intro l f g
    induction l with
    | nil => intros; rfl
    | cons k l ih =>
      intro s hfg
      rw [List.foldl_cons, List.foldl_cons, hfg s k (by simp), ih _ fun s k hk => hfg s k (by simp [hk])]
  have htau : (KEnv.mk ng lin typ pm' idxc idxl).taud = (KEnv.mk ng lin typ pm idxc idxl).taud := by
    simp only [KEnv.taud]; rw [h.tau]
  have hcomp : ∀ j, ∀ k < ng, (KEnv.mk ng lin typ pm' idxc idxl).comp j k = ((KEnv.mk ng lin typ pm idxc idxl).comp j k).mirror := by
    intro j k hk
    simp only [KEnv.comp, compAt, Comp.mirror]
    rw [h.amp j k hk, h.lag j k hk, h.width j k hk]
  have hneg : ∀ t1 t2 : ℝ, -t1 - -t2 = -(t1 - t2) := fun _ _ => by ring
  have hll : ∀ j l t1 t2, (KEnv.mk ng lin typ pm' idxc idxl).sll2 (-t1) (-t2) j l =
      (KEnv.mk ng lin typ pm idxc idxl).sll2 t1 t2 j l := by
    intro j l t1 t2
    unfold KEnv.sll2
    refine fold _ _ _ _ fun s k1 h1 => fold _ _ _ _ fun s k2 h2 => ?_
    have h1 := List.mem_range.1 h1
    have h2 := List.mem_range.1 h2
    rw [htau, hcomp j k1 h1, hcomp l k2 h2, hneg]
    exact congrArg (s + ·) (fpSll_mirror (ht k1 h1) (ht k2 h2) (Real.exp_pos _) _ _ (Real.exp_pos _) (Real.exp_pos _) _)
  refine ⟨fun t1 t2 j => ?_, fun t1 t2 j => ?_, fun t1 t2 j l => hll j l t1 t2⟩
  · simp only [KEnv.kernels]
    unfold KEnv.slc
    refine fold _ _ _ _ fun s k hk => ?_
    have hk := List.mem_range.1 hk
    rw [htau, hcomp j k hk, hneg, fpSlc_mirror (ht k hk) _ _ (Real.exp_pos _)]
  · have := (C36_gauss_tophat (KEnv.mk ng lin typ pm idxc idxl) ht j j t2 t1).1
    show (KEnv.mk ng lin typ pm' idxc idxl).sll (-t1) (-t2) j = (KEnv.mk ng lin typ pm idxc idxl).sll t2 t1 j
    rw [this, KEnv.sll_eq_sll2, KEnv.sll_eq_sll2]
    exact hll j j t1 t2

/-! ## Data -/

/-- A light curve with time running backwards: the times have the opposite sign and the measurements come in the
opposite order, so that the times ascend again. -/
def LC.mirror (d : LC) : LC :=
  ⟨d.n, fun i => -d.t (d.n - 1 - i), fun i => d.f (d.n - 1 - i), fun i => d.fe (d.n - 1 - i), d.em⟩

/-- A data set with time running backwards. -/
def DSet.mirror (d : DSet) : DSet := ⟨d.con.mirror, d.line.map LC.mirror⟩

theorem totalN_mirror (l : List LC) : totalN (l.map LC.mirror) = totalN l := by
  induction l with
  | nil => rfl
  | cons b l ih => simp only [List.map_cons, totalN, ih]; rfl

/-- The number of points of light curve `s`. -/
def curveN (l : List LC) (s : ℕ) : ℕ := (l.map LC.n).getD s 0

theorem curveN_some {l : List LC} {s : ℕ} {a : LC} (h : l[s]? = some a) : curveN l s = a.n := by
  simp [curveN, List.getD_eq_getElem?_getD, List.getElem?_map, h]

/-- The points of the reversed light curves and those of the original ones. -/
theorem mirror_points (l : List LC) :
    ∃ σ : Fin (totalN (l.map LC.mirror)) ≃ Fin (totalN l),
      ∀ p, locate l (σ p) = ((locate (l.map LC.mirror) p).1,
        curveN l (locate (l.map LC.mirror) p).1 - 1 - (locate (l.map LC.mirror) p).2) := by
  have hval : ∀ p : Fin (totalN (l.map LC.mirror)), ∃ a, l[(locate (l.map LC.mirror) p).1]? = some a ∧
      (locate (l.map LC.mirror) p).2 < a.n := by
    intro p
    obtain ⟨a, ha, hi⟩ := locate_valid _ p p.2
    rw [List.getElem?_map, Option.map_eq_some_iff] at ha
    obtain ⟨b, hb, rfl⟩ := ha
    exact ⟨b, hb, hi⟩
  have hex : ∀ p : Fin (totalN (l.map LC.mirror)), ∃ p2 : Fin (totalN l), locate l p2 = ((locate (l.map LC.mirror) p).1,
        curveN l (locate (l.map LC.mirror) p).1 - 1 - (locate (l.map LC.mirror) p).2) := by
    intro p
    obtain ⟨a, ha, hi⟩ := hval p
    rw [curveN_some ha]
    obtain ⟨h1, h2⟩ := locate_place l (i := a.n - 1 - (locate (l.map LC.mirror) p).2) ha (by omega)
    exact ⟨⟨_, h1⟩, h2⟩
  choose F hF using hex
  have hinj : Function.Injective F := by
    intro p p2 hpp
    have := hF p
    rw [hpp, hF p2] at this
    obtain ⟨e1, e2⟩ := Prod.mk.inj this
    obtain ⟨a, ha, hi⟩ := hval p
    obtain ⟨b, hb, hj⟩ := hval p2
    rw [curveN_some ha, curveN_some hb] at e2
    rw [e1, ha] at hb
    obtain rfl := Option.some.inj hb
    refine Fin.ext (locate_inj _ _ _ p.2 p2.2 (Prod.ext e1.symm ?_))
    show (locate (l.map LC.mirror) p).2 = (locate (l.map LC.mirror) p2).2
    omega
  refine ⟨Equiv.ofBijective F ?_, hF⟩
  rw [Fintype.bijective_iff_injective_and_card]
  exact ⟨hinj, by simp [totalN_mirror]⟩

theorem concat_mirror (g g' : LC → ℕ → ℝ) (hg : ∀ a i, g' a.mirror i = g a (a.n - 1 - i)) (l : List LC) (p p2 : ℕ)
    (hp : p < totalN (l.map LC.mirror)) (hp2 : p2 < totalN l)
    (h : locate l p2 = ((locate (l.map LC.mirror) p).1,
        curveN l (locate (l.map LC.mirror) p).1 - 1 - (locate (l.map LC.mirror) p).2)) :
    concat g' (l.map LC.mirror) p = concat g l p2 := by
  obtain ⟨a, ha, hi⟩ := locate_valid _ p hp
  rw [concat_locate g' _ hp rfl ha hi]
  rw [List.getElem?_map, Option.map_eq_some_iff] at ha
  obtain ⟨b, hb, rfl⟩ := ha
  have hi' : (locate (l.map LC.mirror) p).2 < b.n := hi
  rw [curveN_some hb] at h
  rw [concat_locate g l hp2 h hb (by omega), hg]

theorem trendRow_mirror (nq : ℕ) (hq : 0 < nq) (l : List LC) (p p2 : ℕ) (c : ℕ)
    (hp : p < totalN (l.map LC.mirror)) (hp2 : p2 < totalN l)
    (h : locate l p2 = ((locate (l.map LC.mirror) p).1,
        curveN l (locate (l.map LC.mirror) p).1 - 1 - (locate (l.map LC.mirror) p).2)) :
    trendRow nq (l.map LC.mirror) 0 p c = trendRow nq l 0 p2 c * (-1) ^ (c % nq) := by
  obtain ⟨a, ha, hi⟩ := locate_valid _ p hp
  rw [trendRow_locate nq hq _ c hp rfl ha hi]
  rw [List.getElem?_map, Option.map_eq_some_iff] at ha
  obtain ⟨b, hb, rfl⟩ := ha
  have hi' : (locate (l.map LC.mirror) p).2 < b.n := hi
  rw [curveN_some hb] at h
  rw [trendRow_locate nq hq l c hp2 h hb (by omega)]
  split
  · rw [← mul_pow]
    congr 1
    simp only [LC.mirror]; ring
  · rw [zero_mul]

theorem margLL_signs {n n' q q' : ℕ} (σ : Fin n' ≃ Fin n) (hq : q' = q) {C : Matrix (Fin n) (Fin n) ℝ}
    {C' : Matrix (Fin n') (Fin n') ℝ} {L : Matrix (Fin n) (Fin q) ℝ} {L' : Matrix (Fin n') (Fin q') ℝ}
    {f : Fin n → ℝ} {f' : Fin n' → ℝ} (u : ℕ → ℕ) (hC : C' = C.submatrix σ σ)
    (hL : ∀ i j, L' i j = L (σ i) (Fin.cast hq j) * (-1) ^ u j) (hf : f' = f ∘ σ)
    (hM : (Lᵀ * (C⁻¹ * L)).det ≠ 0) : margLL C' L' f' = margLL C L f := by
  subst hq
  set D : Matrix (Fin q') (Fin q') ℝ := Matrix.diagonal fun j => (-1) ^ u j with hD
  have hdet : |D.det| = 1 := by
    rw [hD, Matrix.det_diagonal, Finset.abs_prod]
    exact Finset.prod_eq_one fun j _ => by simp
  have e : L' = (L * D).submatrix σ (Equiv.refl _) := by
    ext i j
    rw [hL, Matrix.submatrix_apply, hD, Matrix.mul_diagonal]
    rfl
  rw [hC, hf, e, margLL_reindex, margLL_mul_det _ _ _ _ (fun h => by rw [h] at hdet; simp at hdet) hM, hdet, Real.log_one,
    sub_zero]

theorem ConOK.mirror {d : LC} {s : ℝ} (h : ConOK d s) : ConOK d.mirror s := by
  have e : ∀ i, i + 1 < d.n → d.n - 1 - i = d.n - 1 - (i + 1) + 1 := fun i hi => by omega
  refine ⟨fun i hi => ?_, ?_⟩
  · have hi' : i + 1 < d.n := hi
    have := h.1 (d.n - 1 - (i + 1)) (by omega)
    show -d.t (d.n - 1 - i) ≤ -d.t (d.n - 1 - (i + 1))
    rw [e i hi']; linarith
  rcases h.2 with h2 | h2
  · refine Or.inl fun i hi => h2 _ ?_
    have hi' : i < d.n := hi
    show d.n - 1 - i < d.n
    omega
  · refine Or.inr fun i hi => ?_
    have hi' : i + 1 < d.n := hi
    have := h2 (d.n - 1 - (i + 1)) (by omega)
    show -d.t (d.n - 1 - i) < -d.t (d.n - 1 - (i + 1))
    rw [e i hi']; linarith

theorem EnoughTimes.mirror {d : LC} {nq : ℕ} (h : EnoughTimes d nq) : EnoughTimes d.mirror nq := by
  obtain ⟨e, he⟩ := h
  refine ⟨fun k => ⟨d.n - 1 - e k, by have := (e k).2; show _ < d.n; omega⟩, fun x y hxy => he ?_⟩
  have h1 : d.n - 1 - (d.n - 1 - (e x : ℕ)) = e x := by have := (e x).2; omega
  have h2 : d.n - 1 - (d.n - 1 - (e y : ℕ)) = e y := by have := (e y).2; omega
  have hxy' : -d.t (d.n - 1 - (d.n - 1 - (e x : ℕ))) = -d.t (d.n - 1 - (d.n - 1 - (e y : ℕ))) := hxy
  rw [h1, h2] at hxy'
  exact neg_injective hxy'

theorem ser_mirror (d : DSet) {s : ℕ} (hs : s < d.series.length) : d.mirror.ser s = (d.ser s).mirror := by
  have : d.mirror.series = d.series.map LC.mirror := rfl
  simp only [DSet.ser, this, List.getD_eq_getElem?_getD, List.getElem?_map,
    List.getElem?_eq_getElem hs, Option.map_some, Option.getD_some]

theorem covEntry_mirror {K K' : Kernels} (hK : K.Mirror K') (d : DSet) {pm pm' : ℕ → ℝ}
    {idxc idxc' : ℕ} {idxl idxl' : ℕ → ℕ} (h : InUnit0 1 pm pm' idxc idxc' idxl idxl')
    (s s' i i' : ℕ) (hx : s < d.series.length) (hy : s' < d.series.length) (hi : i < (d.ser s).n)
    (hi' : i' < (d.ser s').n) :
    covEntry K' d.mirror pm' idxc' idxl' (s, i) (s', i') =
      covEntry K d pm idxc idxl (s, (d.ser s).n - 1 - i) (s', (d.ser s').n - 1 - i') := by
  have h0 : 0 < d.series.length := by simp [DSet.series]
  have ht : pmTau pm' idxc' = pmTau pm idxc := by rw [h.tau, one_mul]
  have hn : noiseVar d.mirror pm' idxc' idxl' (s, i) = noiseVar d pm idxc idxl (s, (d.ser s).n - 1 - i) := by
    rcases s with _ | s
    · simp only [noiseVar, ser_mirror d h0, h.sigma, pmSyserr, h.sys]; rfl
    · simp only [noiseVar, ser_mirror d hx, h.sigma, pmSyserr, h.lineSys]; rfl
  unfold covEntry
  rw [hn]
  congr 1
  · rcases s with _ | s <;> rcases s' with _ | s' <;> simp only [sigCov, ser_mirror d h0]
    · simp only [LC.mirror, ht]
      rw [show ∀ u v : ℝ, -u - -v = -(u - v) from fun u v => by ring, abs_neg]
    · rw [ser_mirror d hy]; exact hK.slc _ _ s'
    · rw [ser_mirror d hx]; exact hK.slc _ _ s
    · rw [ser_mirror d hx, ser_mirror d hy]
      simp only [LC.mirror, hK.sll, hK.sll2]
      by_cases hs : s = s'
      · subst hs
        simp only [if_true]
        by_cases h1 : i' ≤ i
        · rw [if_pos h1]
          by_cases h2 : i = i'
          · subst h2; simp
          · rw [if_neg (by omega)]
        · rw [if_neg h1, if_pos (by omega)]
      · simp only [if_neg hs]
  · by_cases hs : s = s'
    · subst hs
      simp only [Prod.mk.injEq, true_and]
      by_cases h2 : i = i'
      · subst h2; simp
      · rw [if_neg h2, if_neg (by omega)]
    · rw [if_neg (fun h => hs (Prod.mk.inj h).1), if_neg (fun h => hs (Prod.mk.inj h).1)]

end Mica
