import Verif.Proof.Semisep

/-! # C24: the fast solver for the continuum covariance -/

namespace Mica

open Matrix

/-- C24: for sorted times, positive amplitude and rate, and either positive noise or distinct times, the
pivots are positive, the solver returns the solution of `C z = y` (and the only one), and the
log-determinant loop returns `log det C`. -/
theorem C24_solver (n : ℕ) (t sigma y : ℕ → ℝ) (a c syserr : ℝ) (ha : 0 < a) (hc : 0 < c)
    (hmono : ∀ i, i + 1 < n → t i ≤ t (i + 1))
    (hN : (∀ i < n, 0 < sigma i * sigma i + syserr * syserr) ∨ ∀ i, i + 1 < n → t i < t (i + 1))
    (C : Matrix (Fin n) (Fin n) ℝ)
    (hC : C = drwCov a c (fun i => t i) (fun i => sigma i * sigma i + syserr * syserr)) :
    let W := ssW t a c sigma syserr
    let D := ssD t a c sigma syserr
    let phi := ssPhi t c
    (∀ i < n, 0 < D i) ∧
    (C.mulVec fun i => ssSolve y W D phi n a i) = (fun i : Fin n => y i) ∧
    (∀ x : Fin n → ℝ, C.mulVec x = (fun i : Fin n => y i) → ∀ i, x i = ssSolve y W D phi n a i) ∧
    0 < C.det ∧ ssLndet D n = Real.log C.det := by
  have hpos := fun i hi => (ss_pos ha hc hmono hN i hi).2.2
  have hne := fun i hi => (hpos i hi).ne'
  have hdet := ssC_det hmono hne
  have hsolve := ssSolve_spec hmono hne y
  have hCs : C = ssC t a c sigma syserr n := hC
  have hd : 0 < C.det := by
    rw [hCs, hdet]
    exact Finset.prod_pos fun i _ => hpos i i.2
  refine ⟨hpos, by rw [hCs]; exact hsolve, ?_, hd, ?_⟩
  · intro x hx i
    have hu : IsUnit C := (Matrix.isUnit_iff_isUnit_det _).2 (isUnit_iff_ne_zero.2 hd.ne')
    have : C.mulVec x = C.mulVec fun i : Fin n => ssSolve y (ssW t a c sigma syserr)
        (ssD t a c sigma syserr) (ssPhi t c) n a i := by
      rw [hx, hCs, hsolve]
    exact congrFun (Matrix.mulVec_injective_of_isUnit hu this) i
  · rw [ssLndet_eq _ hpos, hCs, hdet]

/-- C24: the matrix version solves the system for every column. -/
theorem C24_solver_matrix (n m : ℕ) (t sigma : ℕ → ℝ) (Y : ℕ → ℕ → ℝ) (a c syserr : ℝ) (ha : 0 < a)
    (hc : 0 < c) (hmono : ∀ i, i + 1 < n → t i ≤ t (i + 1))
    (hN : (∀ i < n, 0 < sigma i * sigma i + syserr * syserr) ∨ ∀ i, i + 1 < n → t i < t (i + 1)) :
    drwCov a c (fun i : Fin n => t i) (fun i => sigma i * sigma i + syserr * syserr) *
      (Matrix.of fun (i : Fin n) (j : Fin m) => ssSolveMat Y (ssW t a c sigma syserr)
        (ssD t a c sigma syserr) (ssPhi t c) n a i j)
      = Matrix.of fun (i : Fin n) (j : Fin m) => Y i j := by
  have hpos := fun i hi => (ss_pos ha hc hmono hN i hi).2.2.ne'
  ext i j
  exact congrFun (ssSolve_spec hmono hpos (fun i => Y i j)) i

/-- C24: `inverse_semiseparable` returns the inverse of the covariance matrix. -/
theorem C24_inverse (n : ℕ) (t sigma : ℕ → ℝ) (a c syserr : ℝ) (ha : 0 < a) (hc : 0 < c)
    (hmono : ∀ i, i + 1 < n → t i ≤ t (i + 1))
    (hN : (∀ i < n, 0 < sigma i * sigma i + syserr * syserr) ∨ ∀ i, i + 1 < n → t i < t (i + 1))
    (C : Matrix (Fin n) (Fin n) ℝ)
    (hC : C = drwCov a c (fun i => t i) (fun i => sigma i * sigma i + syserr * syserr)) :
    C * ssInverse t a c (ssW t a c sigma syserr) (ssD t a c sigma syserr) n = 1 := by
  have hpos := fun i hi => (ss_pos ha hc hmono hN i hi).2.2
  have hCs : C = ssC t a c sigma syserr n := hC
  rw [ssInverse_eq hmono hpos, hCs]
  apply Matrix.mul_nonsing_inv
  rw [ssC_det hmono fun i hi => (hpos i hi).ne']
  exact isUnit_iff_ne_zero.2 (Finset.prod_pos fun (i : Fin n) _ => hpos i i.2).ne'

/-- The hypotheses hold for an unevenly sampled light curve with noise. -/
example : (∀ i, i + 1 < 5 → (fun i : ℕ => ((i : ℝ)) ^ 2) i ≤ (fun i : ℕ => ((i : ℝ)) ^ 2) (i + 1)) ∧
    ∀ i < 5, (0 : ℝ) < (fun _ : ℕ => (1 : ℝ) / 10) i * (fun _ : ℕ => (1 : ℝ) / 10) i + 0 * 0 := by
  refine ⟨?_, ?_⟩
  · intro i _
    have : (0 : ℝ) ≤ i := Nat.cast_nonneg i
    push_cast
    nlinarith
  · intro i _; norm_num

/-- Simultaneous observations without noise are not covered, and indeed the pivot is then zero. -/
theorem C24_needs_noise (a c : ℝ) (ha : 0 < a) : ssD (fun _ => 0) a c (fun _ => 0) 0 1 = 0 := by
  simp only [ssD, ssState, ssPhi]
  have : a ≠ 0 := ha.ne'
  simp
  field_simp
  simp

end Mica
