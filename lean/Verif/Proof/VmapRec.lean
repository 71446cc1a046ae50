import Verif.Model.VmapRec
import Verif.Proof.VmapLike
import Verif.Proof.ReconLine

/-! Helper lemmas about the reconstruction in the virtual-continuum mode. -/

namespace Mica

open Matrix

theorem llWrites_vPm (K : Kernels) (pm : ℕ → ℝ) (idxc : ℕ) (idxl : ℕ → ℕ) (sigma : ℝ) (nall : ℕ) (ls : List LC)
    (j np : ℕ) : llWrites K sigma (vPm pm idxc idxl) (fun j => j + 3) nall ls j np =
      llWrites K sigma pm idxl nall ls j np := by
  induction ls generalizing j np with
  | nil => rfl
  | cons a l ih =>
    simp only [llWrites, ih, vPm_syserr]

theorem vSeq_eq (K : Kernels) (pm : ℕ → ℝ) (idxc : ℕ) (idxl : ℕ → ℕ) (ls : List LC) :
    llWrites K (vSigma pm idxc) pm idxl (totalN ls) ls 0 0 =
      lineWrites K (vSet ls) (vPm pm idxc idxl) 0 (fun j => j + 3) := by
  rw [lineWrites, vPm_sigma, vSet_nall]
  have hc : ∀ s t y n, ccWrites s t y n (vSet ls).con = [] := fun s t y n => by simp [ccWrites, vSet]
  have hl : ∀ S n, lcWrites S n (vSet ls) = [] := fun S n => by simp [lcWrites, vSet]
  rw [hc, hl, List.nil_append, List.nil_append, llWrites_vPm]
  rfl

/-- Both fills of the matrix give the same. -/
theorem vPCseq_eq (K : Kernels) (pm : ℕ → ℝ) (idxc : ℕ) (idxl : ℕ → ℕ) (ls : List LC) (mem mem' : ℕ → ℝ) :
    vPCseq K pm idxc idxl ls mem = vPC K pm idxc idxl ls mem' := by
  ext p q
  have h := runWrites_line K (vSet ls) (vPm pm idxc idxl) 0 (fun j => j + 3) mem (p := p) (q := q)
    (by rw [vSet_nall]; exact p.2) (by rw [vSet_nall]; exact q.2)
  rw [vLocate, vLocate, ← vSeq_eq, vSet_nall] at h
  rw [vPC_apply]
  exact h

theorem vuLines_eq (K : Kernels) (nd : ℕ) (ls l : List LC) (k np : ℕ) :
    vuLines K nd ls l k np = uLines K nd (vSet ls) l k np := by
  induction l generalizing k np with
  | nil => rfl
  | cons a l ih => simp [vuLines, uLines, ih, vSet]

theorem vuWrites_eq (K : Kernels) (tau : ℝ) (ls : List LC) (R : DSet) :
    vuWrites K ls R = uWrites K tau (vSet ls) R := by
  rw [vuWrites, uWrites, vuLines_eq, vSet_nall]
  simp [vSet]

/-- Data point `q` as number of the light curve (from 1) and time. -/
noncomputable def vPt (ls : List LC) (q : ℕ) : ℕ × ℝ := (vSet ls).pt q

theorem vUS_eq (K : Kernels) (tau : ℝ) (ls : List LC) (R : DSet) (mem : ℕ → ℝ) :
    vUS K ls R mem = fun (p : Fin R.nall) (q : Fin (totalN ls)) => pointCov K tau (R.pt p) (vPt ls q) := by
  ext p q
  have h := congrFun (congrFun (US_eq K (vSet ls) R (fun _ => Real.log tau) 0 mem) p) (Fin.cast (vSet_nall ls).symm q)
  rw [DSet.US, matOf, ← vuWrites_eq, Fin.val_cast, vSet_nall] at h
  rw [vUS, matOf, h]
  obtain ⟨m, hm⟩ : ∃ m, vPt ls q = (m + 1, (vPt ls q).2) := by
    refine ⟨(locate ls q).1, ?_⟩
    simp only [vPt, DSet.pt, vLocate]
  rw [show (vSet ls).pt q = vPt ls q from rfl, hm]
  rcases hp : (R.pt p).1 with _ | s
  · rw [show R.pt p = (0, (R.pt p).2) from Prod.ext hp rfl]; rfl
  · rw [show R.pt p = (s + 1, (R.pt p).2) from Prod.ext hp rfl]; rfl

/-- The trend of a point: none for the virtual continuum. -/
noncomputable def vTrendAt (nq q : ℕ) (x : ℕ × ℝ) : Fin q → ℝ :=
  fun c => if x.1 = 0 then 0 else if (c : ℕ) / nq = x.1 - 1 then x.2 ^ ((c : ℕ) % nq) else 0

theorem trendRow_at (nq N : ℕ) (pre : List LC) (a : LC) (post : List LC) {m : ℕ} (hm : m < a.n) :
    (fun c : Fin (nq * N) => trendRow nq (pre ++ a :: post) 0 (totalN pre + m) c) =
      vTrendAt nq (nq * N) (pre.length + 1, a.t m) := by
  ext c
  rw [trendRow_split nq 0 pre a post m c hm]
  simp only [vTrendAt, zero_add, Nat.add_sub_cancel, if_neg (Nat.succ_ne_zero pre.length)]
  have h0 : 0 < nq := by
    rcases Nat.eq_zero_or_pos nq with h0 | h0
    · have h5 : nq * N = 0 := by rw [h0, zero_mul]
      have := c.2; omega
    · exact h0
  have h5 := Nat.div_add_mod (c : ℕ) nq
  have h6 := Nat.mod_lt (c : ℕ) h0
  by_cases hc : (c : ℕ) / nq = pre.length
  · rw [hc, Nat.mul_comm] at h5
    rw [if_pos hc, if_pos (by omega)]
    congr 1
    omega
  · rw [if_neg hc, if_neg]
    rintro ⟨h7, h8⟩
    exact hc (Nat.div_eq_of_lt_le h7 (by rw [Nat.add_mul, one_mul]; exact h8))

theorem vTrend_pt (nq : ℕ) (ls : List LC) :
    vTrend nq ls = fun q : Fin (totalN ls) => vTrendAt nq (nq * ls.length) (vPt ls q) := by
  funext q
  obtain ⟨pre, a, post, m, h1, h2, h3⟩ := locate_exists ls q q.2
  have h := trendRow_at nq ls.length pre a post h2
  have hp : vPt ls q = (pre.length + 1, a.t m) := by
    have := pt_line (vSet ls) (pre := pre) (a := a) (post := post) h1 h2
    rw [h3, vPt]
    simpa [vSet] using this
  rw [hp, ← h, ← h1]
  funext c
  simp only [vTrend, h3]

theorem vTrendRec_pt (nq N : ℕ) (R : DSet) :
    vTrendRec nq (nq * N) R = fun p : Fin R.nall => vTrendAt nq (nq * N) (R.pt p) := by
  funext p
  rcases point_cases R p.2 with h | ⟨pre, a, post, m, h1, h2, h3⟩
  · funext c
    simp [vTrendRec, h, pt_con R h, vTrendAt]
  · have hh := trendRow_at nq N pre a post h2
    have hn : ¬ (p : ℕ) < R.con.n := by omega
    rw [h3, pt_line R h1 h2, ← hh]
    funext c
    simp only [vTrendRec, if_neg hn]
    rw [h1, show (p : ℕ) - R.con.n = totalN pre + m by omega]

/-- What the reconstruction returns. -/
theorem vRec_eq {n q m : ℕ} {PC : Matrix (Fin n) (Fin n) ℝ} {U : Matrix (Fin m) (Fin n) ℝ} {A : Matrix (Fin m) (Fin m) ℝ}
    {L : Matrix (Fin n) (Fin q) ℝ} {Lrec : Matrix (Fin m) (Fin q) ℝ} (nq nv : ℕ) (f : Fin n → ℝ) (sigma : ℝ)
    (hC : PC.PosDef) (hL : Function.Injective L.mulVec) :
    vRec nq nv PC U A L Lrec f sigma = .ok ⟨vCoef nq (glsCoef PC L f), fun i => blupW PC L (U i) (Lrec i) ⬝ᵥ f,
      fun i => if (i : ℕ) < nv then (cSqrt (predErr PC (U i) (A i i) (PC⁻¹.mulVec (U i)))).map fun s => sigma * s
        else (cSqrt (predErr PC (U i) (A i i) (blupW PC L (U i) (Lrec i)))).map fun s => sigma * s⟩ := by
  have hq := trend_posDef hC hL
  have hs := inv_symm (posDef_symm hC)
  have hy : (PC⁻¹ * L)ᵀ.mulVec f = Lᵀ.mulVec (PC⁻¹.mulVec f) := by
    rw [Matrix.transpose_mul, hs, Matrix.mulVec_mulVec]
  have hq' : glsCoef PC L f = (Lᵀ * (PC⁻¹ * L))⁻¹.mulVec (Lᵀ.mulVec (PC⁻¹.mulVec f)) := rfl
  have hu : (PC⁻¹ * Uᵀ)ᵀ = U * PC⁻¹ := by rw [Matrix.transpose_mul, Matrix.transpose_transpose, hs]
  simp only [vRec, luInv_posDef hC, Res.ok_bind, luInv_posDef hq, hy, ← hq', hu, ← Matrix.mul_assoc U PC⁻¹ Uᵀ]
  congr 1
  rw [recon_val hC]
  congr 1
  funext i
  by_cases hi : (i : ℕ) < nv
  · rw [if_pos hi, if_pos hi]
    congr 2
    have hu : IsUnit PC.det := isUnit_iff_ne_zero.2 hC.det_pos.ne'
    have h1 : (U * PC⁻¹ * Uᵀ) i i = PC⁻¹.mulVec (U i) ⬝ᵥ U i := by
      rw [Matrix.mul_assoc, Matrix.mul_apply, dotProduct]
      refine Finset.sum_congr rfl fun j _ => ?_
      rw [mul_comm]
      rfl
    rw [predErr, Matrix.mulVec_mulVec, Matrix.mul_nonsing_inv _ hu, Matrix.one_mulVec, h1]
    ring
  · rw [if_neg hi, if_neg hi]
    simp only [recon_err hC hL]

theorem vmapRec_eq (K : Kernels) (nq : ℕ) (ls : List LC) (R : DSet) (pm : ℕ → ℝ) (idxc : ℕ) (idxl : ℕ → ℕ)
    (f : Fin (totalN ls) → ℝ) (memP memU memA mem' : ℕ → ℝ) (hC : (vPC K pm idxc idxl ls mem').PosDef)
    (hL : ∀ a ∈ ls, EnoughTimes a nq) :
    vmapRec K nq ls R pm idxc idxl f memP memU memA = .ok ⟨vCoef nq (glsCoef (vPC K pm idxc idxl ls mem') (vTrend nq ls) f),
      fun i => blupW (vPC K pm idxc idxl ls mem') (vTrend nq ls)
        (fun q : Fin (totalN ls) => pointCov K (Real.exp (pm (idxc + 2))) (R.pt i) (vPt ls q))
        (vTrendAt nq (nq * ls.length) (R.pt i)) ⬝ᵥ f,
      fun i => if (i : ℕ) < R.con.n then
          (cSqrt (predErr (vPC K pm idxc idxl ls mem') (fun q : Fin (totalN ls) => pointCov K (Real.exp (pm (idxc + 2))) (R.pt i) (vPt ls q))
            (pointCov K (Real.exp (pm (idxc + 2))) (R.pt i) (R.pt i))
            ((vPC K pm idxc idxl ls mem')⁻¹.mulVec fun q : Fin (totalN ls) => pointCov K (Real.exp (pm (idxc + 2))) (R.pt i) (vPt ls q)))).map
              fun s => vSigma pm idxc * s
        else (cSqrt (predErr (vPC K pm idxc idxl ls mem') (fun q : Fin (totalN ls) => pointCov K (Real.exp (pm (idxc + 2))) (R.pt i) (vPt ls q))
            (pointCov K (Real.exp (pm (idxc + 2))) (R.pt i) (R.pt i))
            (blupW (vPC K pm idxc idxl ls mem') (vTrend nq ls)
              (fun q : Fin (totalN ls) => pointCov K (Real.exp (pm (idxc + 2))) (R.pt i) (vPt ls q))
              (vTrendAt nq (nq * ls.length) (R.pt i))))).map fun s => vSigma pm idxc * s⟩ := by
  have hLi := vTrend_injective nq ls hL
  have hA : ∀ p : Fin R.nall, vAS K (Real.exp (pm (idxc + 2))) R memA p p =
      pointCov K (Real.exp (pm (idxc + 2))) (R.pt p) (R.pt p) := fun p => AS_diag K R pm idxc memA p
  rw [vmapRec, vPCseq_eq K pm idxc idxl ls memP mem', vUS_eq K (Real.exp (pm (idxc + 2))), vTrendRec_pt]
  refine (vRec_eq _ _ _ _ hC hLi).trans ?_
  simp only [hA]

end Mica
