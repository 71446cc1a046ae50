import Verif.Proof.Recon
import Verif.Proof.KernelPsd

/-! Helper lemmas about the reconstruction of continuum and lines. -/

namespace Mica

open Matrix

/-! ### `USmat` -/

theorem mem_uRow (S : ℕ → ℝ → ℝ) (nd r : ℕ) (l : List LC) (m np : ℕ) (w : ℕ × ℝ) :
    w ∈ uRow S nd r l m np ↔ ∃ pre a post, l = pre ++ a :: post ∧ ∃ j < a.n,
      w = (r * nd + (np + totalN pre + j), S (m + pre.length) (a.t j)) := by
  induction l generalizing m np with
  | nil => simp [uRow]
  | cons a l ih =>
    simp only [uRow, List.mem_append, List.mem_map, List.mem_range, ih]
    constructor
    · rintro (⟨j, hj, hw⟩ | ⟨pre, b, post, rfl, j, hj, hw⟩)
      · exact ⟨[], a, l, rfl, j, hj, by simpa [totalN] using hw.symm⟩
      · refine ⟨a :: pre, b, post, rfl, j, hj, ?_⟩
        simpa [totalN, add_assoc, add_comm, add_left_comm] using hw
    · rintro ⟨pre, b, post, h, j, hj, hw⟩
      rcases pre with _ | ⟨c, pre⟩
      · simp only [List.nil_append, List.cons.injEq] at h
        obtain ⟨rfl, rfl⟩ := h
        left
        exact ⟨j, hj, by simpa [totalN] using hw.symm⟩
      · simp only [List.cons_append, List.cons.injEq] at h
        obtain ⟨rfl, rfl⟩ := h
        right
        refine ⟨pre, b, post, rfl, j, hj, ?_⟩
        simpa [totalN, add_assoc, add_comm, add_left_comm] using hw

theorem mem_uLines (K : Kernels) (nd : ℕ) (d : DSet) (l : List LC) (k np : ℕ) (w : ℕ × ℝ) :
    w ∈ uLines K nd d l k np ↔ ∃ pre a post, l = pre ++ a :: post ∧ ∃ i < a.n,
      (∃ j < d.con.n, w = ((np + totalN pre + i) * nd + j, K.Slc (d.con.t j) (a.t i) (k + pre.length))) ∨
      w ∈ uRow (fun m t2 => if m = k + pre.length then K.Sll (a.t i) t2 (k + pre.length)
        else K.Sll2 (a.t i) t2 (k + pre.length) m) nd (np + totalN pre + i) d.line 0 d.con.n := by
  induction l generalizing k np with
  | nil => simp [uLines]
  | cons a l ih =>
    simp only [uLines, List.mem_append, List.mem_flatMap, List.mem_map, List.mem_range, ih]
    constructor
    · rintro (⟨i, hi, hw⟩ | ⟨pre, b, post, rfl, i, hi, hw⟩)
      · refine ⟨[], a, l, rfl, i, hi, ?_⟩
        rcases hw with ⟨j, hj, hw⟩ | hw
        · exact Or.inl ⟨j, hj, by simpa [totalN] using hw.symm⟩
        · exact Or.inr (by simpa [totalN] using hw)
      · refine ⟨a :: pre, b, post, rfl, i, hi, ?_⟩
        simp only [totalN, List.length_cons]
        rw [show np + (a.n + totalN pre) = np + a.n + totalN pre by omega,
          show k + (pre.length + 1) = k + 1 + pre.length by omega]
        exact hw
    · rintro ⟨pre, b, post, h, i, hi, hw⟩
      rcases pre with _ | ⟨c, pre⟩
      · simp only [List.nil_append, List.cons.injEq] at h
        obtain ⟨rfl, rfl⟩ := h
        left
        refine ⟨i, hi, ?_⟩
        rcases hw with ⟨j, hj, hw⟩ | hw
        · exact Or.inl ⟨j, hj, by simpa [totalN] using hw.symm⟩
        · exact Or.inr (by simpa [totalN] using hw)
      · simp only [List.cons_append, List.cons.injEq] at h
        obtain ⟨rfl, rfl⟩ := h
        right
        refine ⟨pre, b, post, rfl, i, hi, ?_⟩
        simp only [totalN, List.length_cons] at hw
        rw [show np + (a.n + totalN pre) = np + a.n + totalN pre by omega,
          show k + (pre.length + 1) = k + 1 + pre.length by omega] at hw
        exact hw

theorem pt_con (d : DSet) {i : ℕ} (hi : i < d.con.n) : d.pt i = (0, d.con.t i) := by
  simp only [DSet.pt, locate_con d hi]; rfl

theorem pt_line (d : DSet) {pre : List LC} {a : LC} {post : List LC} (h : d.line = pre ++ a :: post) {m : ℕ}
    (hm : m < a.n) : d.pt (d.con.n + totalN pre + m) = (pre.length + 1, a.t m) := by
  obtain ⟨h1, h2, _⟩ := locate_line d h hm
  simp only [DSet.pt, h1, h2]

theorem point_cases (d : DSet) {p : ℕ} (hp : p < d.nall) : p < d.con.n ∨ ∃ pre a post m,
    d.line = pre ++ a :: post ∧ m < a.n ∧ p = d.con.n + totalN pre + m := by
  rcases Nat.lt_or_ge p d.con.n with h | h
  · exact Or.inl h
  · right
    obtain ⟨pre, a, post, m, h1, h2, h3⟩ := locate_exists d.line (p - d.con.n) (by
      simp only [DSet.nall, DSet.series, totalN] at hp; omega)
    exact ⟨pre, a, post, m, h1, h2, by omega⟩

/-- The entries of `USmat`. -/
theorem US_eq (K : Kernels) (d R : DSet) (pm : ℕ → ℝ) (idxc : ℕ) (mem : ℕ → ℝ) :
    DSet.US K d R pm idxc mem = fun (p : Fin R.nall) (q : Fin d.nall) => pointCov K (pmTau pm idxc) (R.pt p) (d.pt q) := by
  ext p q
  let V : ℕ → ℝ := fun a => pointCov K (pmTau pm idxc) (R.pt (a / d.nall)) (d.pt (a % d.nall))
  have hV : ∀ {r c : ℕ}, c < d.nall → V (r * d.nall + c) = pointCov K (pmTau pm idxc) (R.pt r) (d.pt c) := by
    intro r c hc
    simp only [V, addr_div hc, addr_mod hc]
  have hmain : runWrites (uWrites K (pmTau pm idxc) d R) mem (p * d.nall + q) = V (p * d.nall + q) := by
    apply runWrites_eq
    · intro w hw
      simp only [uWrites, List.mem_append, List.mem_flatMap, List.mem_map, List.mem_range, mem_uRow, mem_uLines] at hw
      rcases hw with ⟨i, hi, ⟨j, hj, rfl⟩ | ⟨pre, a, post, hl, j, hj, rfl⟩⟩ | ⟨pre, a, post, hl, i, hi, hw⟩
      · simp only
        rw [hV (con_lt_nall d hj), pt_con R hi, pt_con d hj]; rfl
      · simp only
        rw [hV (locate_line d hl hj).2.2, pt_con R hi, pt_line d hl hj, zero_add]; rfl
      · rcases hw with ⟨j, hj, rfl⟩ | ⟨pre', b, post', hl', j, hj, rfl⟩
        · simp only
          rw [hV (con_lt_nall d hj), pt_line R hl hi, pt_con d hj, zero_add]; rfl
        · simp only
          rw [hV (locate_line d hl' hj).2.2, pt_line R hl hi, pt_line d hl' hj, zero_add, zero_add]; rfl
    · simp only [uWrites, List.mem_append, List.mem_flatMap, List.mem_map, List.mem_range, mem_uRow, mem_uLines]
      rcases point_cases R p.2 with h | ⟨pre, a, post, i, h1, h2, h3⟩ <;>
        rcases point_cases d q.2 with k | ⟨pre', b, post', j, k1, k2, k3⟩
      · exact ⟨_, Or.inl ⟨p, h, Or.inl ⟨q, k, rfl⟩⟩, rfl⟩
      · exact ⟨_, Or.inl ⟨p, h, Or.inr ⟨pre', b, post', k1, j, k2, rfl⟩⟩, by rw [k3]⟩
      · exact ⟨_, Or.inr ⟨pre, a, post, h1, i, h2, Or.inl ⟨q, k, rfl⟩⟩, by rw [h3]⟩
      · exact ⟨_, Or.inr ⟨pre, a, post, h1, i, h2, Or.inr ⟨pre', b, post', k1, j, k2, rfl⟩⟩, by rw [h3, k3]⟩
  rw [DSet.US, matOf, hmain, hV q.2]

/-! ### `ASmat` -/

/-- A light curve without noise. -/
def LC.zeroN (a : LC) : LC := { a with fe := fun _ => 0, em := 0 }

theorem lcRow_zeroN (S : ℝ → ℝ → ℕ → ℝ) (nall i : ℕ) (t1 : ℝ) (l : List LC) (j np : ℕ) :
    lcRow S nall i t1 (l.map LC.zeroN) j np = lcRow S nall i t1 l j np := by
  induction l generalizing j np with
  | nil => rfl
  | cons a l ih => simp only [List.map_cons, lcRow, ih]; rfl

theorem llRow_zeroN (S : ℝ → ℝ → ℕ → ℕ → ℝ) (nall r : ℕ) (t1 : ℝ) (j : ℕ) (l : List LC) (k np : ℕ) :
    llRow S nall r t1 j (l.map LC.zeroN) k np = llRow S nall r t1 j l k np := by
  induction l generalizing k np with
  | nil => rfl
  | cons a l ih => simp only [List.map_cons, llRow, ih]; rfl

theorem llWrites_zeroN (K : Kernels) (sigma : ℝ) (pm : ℕ → ℝ) (idx : ℕ → ℕ) (nall : ℕ) (l : List LC) (j np : ℕ) :
    llWrites K sigma pm idx nall (l.map LC.zeroN) j np = aLines K nall l j np := by
  induction l generalizing j np with
  | nil => rfl
  | cons a l ih =>
    simp only [List.map_cons, llWrites, aLines, ih, llRow_zeroN]
    simp [LC.zeroN, pmSyserr]

/-- The data set with the reconstructed times and no noise. -/
def DSet.zeroN (R : DSet) : DSet := ⟨R.con.zeroN, R.line.map LC.zeroN⟩

theorem zeroN_totalN (l : List LC) : totalN (l.map LC.zeroN) = totalN l := by
  induction l with
  | nil => rfl
  | cons a l ih => simp only [List.map_cons, totalN, ih]; rfl

theorem zeroN_nall (R : DSet) : R.zeroN.nall = R.nall := by
  simp only [DSet.nall, DSet.series, DSet.zeroN, totalN, zeroN_totalN]; rfl

theorem mem_aWrites (K : Kernels) (R : DSet) (pm : ℕ → ℝ) (idxc : ℕ) (idxl : ℕ → ℕ) (w : ℕ × ℝ) :
    w ∈ aWrites K (pmTau pm idxc) R ↔ w ∈ lineWrites K R.zeroN pm idxc idxl := by
  simp only [aWrites, lineWrites, zeroN_nall, List.mem_append]
  rw [show R.zeroN.line = R.line.map LC.zeroN from rfl, llWrites_zeroN]
  refine or_congr ?_ Iff.rfl
  simp only [ccWrites, lcWrites, List.mem_flatMap, List.mem_append, List.mem_range, List.mem_singleton]
  rw [show R.zeroN.line = R.line.map LC.zeroN from rfl]
  simp only [lcRow_zeroN]
  simp only [DSet.zeroN, LC.zeroN, pmSyserr, mul_zero, add_zero, zero_div]
  constructor
  · rintro ⟨i, hi, h | h⟩
    · exact Or.inl ⟨i, hi, h⟩
    · exact Or.inr ⟨i, hi, h⟩
  · rintro (⟨i, hi, h⟩ | ⟨i, hi, h⟩)
    · exact ⟨i, hi, Or.inl h⟩
    · exact ⟨i, hi, Or.inr h⟩

theorem locate_zeroN (l : List LC) (p : ℕ) : locate (l.map LC.zeroN) p = locate l p := by
  induction l generalizing p with
  | nil => rfl
  | cons a l ih => simp only [List.map_cons, locate, ih]; rfl

theorem series_zeroN (R : DSet) : R.zeroN.series = R.series.map LC.zeroN := rfl

/-- The diagonal of `ASmat`. -/
theorem AS_diag (K : Kernels) (R : DSet) (pm : ℕ → ℝ) (idxc : ℕ) (mem : ℕ → ℝ) (p : Fin R.nall) :
    DSet.AS K R pm idxc mem p p = pointCov K (pmTau pm idxc) (R.pt p) (R.pt p) := by
  have hn := zeroN_nall R
  have h : runWrites (aWrites K (pmTau pm idxc) R) mem (p * R.zeroN.nall + p) =
      addrVal K R.zeroN pm idxc (fun _ => 0) (p * R.zeroN.nall + p) := by
    apply runWrites_eq
    · intro w hw
      exact (lineWrites_val K R.zeroN pm idxc (fun _ => 0) w ((mem_aWrites K R pm idxc (fun _ => 0) w).1 hw)).1
    · obtain ⟨w, hw, e⟩ := lineWrites_cover K R.zeroN pm idxc (fun _ => 0) p p (by omega) (by omega)
      exact ⟨w, (mem_aWrites K R pm idxc (fun _ => 0) w).2 hw, e⟩
  rw [addrVal_eq K R.zeroN pm idxc (fun _ => 0) (by omega) rfl rfl, series_zeroN, locate_zeroN] at h
  have h1 : DSet.AS K R pm idxc mem p p = _ := (congrArg (fun n => runWrites (aWrites K (pmTau pm idxc) R) mem (p * n + p)) hn).symm.trans h
  rw [h1]
  have ht : ∀ s, (R.zeroN.ser s).t = (R.ser s).t ∧ (R.zeroN.ser s).fe = (fun _ => 0) ∧ (R.zeroN.ser s).em = 0 := by
    intro s
    have : R.zeroN.ser s = (R.ser s).zeroN := by
      unfold DSet.ser
      rw [series_zeroN]
      simp only [List.getD_eq_getElem?_getD, List.getElem?_map]
      cases R.series[s]? <;> rfl
    rw [this]; exact ⟨rfl, rfl, rfl⟩
  have h0 : ∀ x, noiseVar R.zeroN pm idxc (fun _ => 0) x = 0 := by
    rintro ⟨s, i⟩
    simp only [noiseVar, (ht _).2.1, (ht _).2.2, pmSyserr]
    cases s <;> simp [DSet.zeroN, LC.zeroN]
  rw [covEntry, h0, DSet.pt]
  obtain ⟨s, i⟩ := locate R.series p
  cases s <;> simp [sigCov, pointCov, (ht _).1]

/-! ### `Larr_rec` -/

theorem trendRow_pt (R : DSet) (nq N : ℕ) {p : ℕ} (hp : p < R.nall) :
    (fun c : Fin (nq * N) => trendRow nq R.series 0 p c) = trendAt nq (nq * N) (R.pt p) := by
  obtain ⟨pre, a, post, m, h1, h2, h3⟩ := locate_exists R.series p hp
  have hl : locate R.series p = (pre.length, m) := by rw [h1, h3, locate_split _ _ _ _ h2]
  have hs : R.ser pre.length = a := by rw [DSet.ser, h1]; exact getD_split pre a post _
  ext c
  simp only [trendAt, DSet.pt, hl, hs]
  rw [h1, h3, trendRow_split _ _ _ _ _ _ _ h2, zero_add]
  by_cases hc : pre.length * nq ≤ (c : ℕ) ∧ (c : ℕ) < pre.length * nq + nq
  · have h4 : (c : ℕ) / nq = pre.length := Nat.div_eq_of_lt_le hc.1 (by rw [Nat.add_mul, one_mul]; exact hc.2)
    rw [if_pos hc, if_pos h4]
    congr 1
    have := Nat.div_add_mod (c : ℕ) nq
    rw [h4, Nat.mul_comm] at this
    omega
  · rw [if_neg hc]
    split
    · rename_i h4
      have h0 : 0 < nq := by
        rcases Nat.eq_zero_or_pos nq with h0 | h0
        · have h5 : nq * N = 0 := by rw [h0, zero_mul]
          have := c.2; omega
        · exact h0
      have h5 := Nat.div_add_mod (c : ℕ) nq
      have h6 := Nat.mod_lt (c : ℕ) h0
      rw [h4, Nat.mul_comm] at h5
      exact absurd ⟨by omega, by omega⟩ hc
    · rfl

/-! ### The three variants -/

section variants
variable {n q m : ℕ} {PC : Matrix (Fin n) (Fin n) ℝ} {U : Matrix (Fin m) (Fin n) ℝ} {A : Matrix (Fin m) (Fin m) ℝ}
  {L : Matrix (Fin n) (Fin q) ℝ} {Lrec : Matrix (Fin m) (Fin q) ℝ} (f : Fin n → ℝ) (sigma : ℝ)

theorem lineRec1_eq (hC : PC.PosDef) (hL : Function.Injective L.mulVec) :
    lineRec1 PC U A L Lrec f sigma = .ok (blupRecon PC U (fun i => A i i) L Lrec f sigma) := by
  have hq := trend_posDef hC hL
  have hs := inv_symm (posDef_symm hC)
  have hy : (PC⁻¹ * L)ᵀ.mulVec f = Lᵀ.mulVec (PC⁻¹.mulVec f) := by
    rw [Matrix.transpose_mul, hs, Matrix.mulVec_mulVec]
  have hq' : glsCoef PC L f = (Lᵀ * (PC⁻¹ * L))⁻¹.mulVec (Lᵀ.mulVec (PC⁻¹.mulVec f)) := rfl
  have hu : (PC⁻¹ * Uᵀ)ᵀ = U * PC⁻¹ := by rw [Matrix.transpose_mul, Matrix.transpose_transpose, hs]
  simp only [lineRec1, luInv_posDef hC, Res.ok_bind, luInv_posDef hq, hy, ← hq', hu, ← Matrix.mul_assoc U PC⁻¹ Uᵀ]
  congr 1
  unfold blupRecon
  rw [recon_val hC]
  simp only [recon_err hC hL]

theorem lineRec2_eq (hC : PC.PosDef) (hL : Function.Injective L.mulVec) :
    lineRec2 PC U A L Lrec f sigma = blupRecon PC U (fun i => A i i) L Lrec f sigma := by
  have hq := trend_posDef hC hL
  have hq' : glsCoef PC L f = (Lᵀ * (PC⁻¹ * L))⁻¹.mulVec (Lᵀ.mulVec (PC⁻¹.mulVec f)) := rfl
  simp only [lineRec2, inverseSymat_eq (posDef_symm hC), inverseSymat_eq (posDef_symm hq), ← hq']
  unfold blupRecon
  rw [recon_val hC]
  simp only [recon_err hC hL]

end variants

theorem lineRec3_eq (K : Kernels) (d : DSet) (pm : ℕ → ℝ) (idxc : ℕ) (idxl : ℕ → ℕ) (nq : ℕ) {m : ℕ}
    {U : Matrix (Fin m) (Fin d.nall) ℝ} {A : Matrix (Fin m) (Fin m) ℝ}
    {Lrec : Matrix (Fin m) (Fin (nq * (1 + d.line.length))) ℝ} (f : Fin d.nall → ℝ)
    (hcon : ConOK d.con (pmSyserr pm idxc d.con.em))
    (hC : (d.cov K pm idxc idxl).PosDef) (hL : Function.Injective (d.trend nq).mulVec) (hne : d.line ≠ []) :
    lineRec3 nq d pm idxc (d.cov K pm idxc idxl) U A Lrec f =
      blupRecon (d.cov K pm idxc idxl) U (fun i => A i i) (d.trend nq) Lrec f (pmSigma pm idxc) := by
  have hs := pmSigma_pos pm idxc
  obtain ⟨h1, _⟩ := semi_iter_cast (N := d.nall) (narr := d.line.map LC.n)
    (by rw [← totalN_eq_sum]; rfl) d.con.t (fun i => d.con.fe i / pmSigma pm idxc) 1 (1 / pmTau pm idxc)
    (pmSyserr pm idxc d.con.em / pmSigma pm idxc) one_pos (one_div_pos.2 (pmTau_pos pm idxc)) hcon.1
    (ConOK_scale hs hcon) (d.cov K pm idxc idxl) hC (cov_lead K d pm idxc idxl)
  replace h1 := h1 (by simpa using hne)
  have hq := trend_posDef hC hL
  have hyq : ((d.cov K pm idxc idxl)⁻¹ * d.trend nq)ᵀ.mulVec f =
      (d.trend nq)ᵀ.mulVec ((d.cov K pm idxc idxl)⁻¹.mulVec f) := by
    rw [Matrix.transpose_mul, inv_symm (posDef_symm hC), Matrix.mulVec_mulVec]
  have hq' : glsCoef (d.cov K pm idxc idxl) (d.trend nq) f = ((d.trend nq)ᵀ *
      ((d.cov K pm idxc idxl)⁻¹ * d.trend nq))⁻¹.mulVec ((d.trend nq)ᵀ.mulVec
      ((d.cov K pm idxc idxl)⁻¹.mulVec f)) := rfl
  simp only [lineRec3, h1, hyq, inverseSymat_eq (posDef_symm hq), ← hq', neg_one_smul, one_smul, neg_add_eq_sub,
    ← sub_eq_add_neg, ← Matrix.mulVec_mulVec]
  unfold blupRecon
  rw [recon_val hC]
  simp only [recon_err hC hL]
  ext i : 2
  · rfl
  · simp only [add_comm]
  · simp only [Matrix.sub_apply]
    congr 2
    ring

theorem PCseq_eq (K : Kernels) (d : DSet) (pm : ℕ → ℝ) (idxc : ℕ) (idxl : ℕ → ℕ) (mem : ℕ → ℝ) :
    d.PCseq K pm idxc idxl mem = d.cov K pm idxc idxl := by
  ext p q
  exact runWrites_line K d pm idxc idxl mem p.2 q.2

/-- What the three line reconstructions return. -/
noncomputable def lineBlup (K : Kernels) (nq : ℕ) (d R : DSet) (pm : ℕ → ℝ) (idxc : ℕ) (idxl : ℕ → ℕ)
    (f : Fin d.nall → ℝ) : Recon (nq * (1 + d.line.length)) R.nall :=
  blupRecon (d.cov K pm idxc idxl) (fun (p : Fin R.nall) (q : Fin d.nall) => pointCov K (pmTau pm idxc) (R.pt p) (d.pt q))
    (fun p => pointCov K (pmTau pm idxc) (R.pt p) (R.pt p)) (d.trend nq)
    (fun p => trendAt nq (nq * (1 + d.line.length)) (R.pt p)) f (pmSigma pm idxc)

theorem lineRecs_eq (K : Kernels) (d R : DSet) (pm : ℕ → ℝ) (idxc : ℕ) (idxl : ℕ → ℕ) (nq : ℕ) (f : Fin d.nall → ℝ)
    (hcon : ConOK d.con (pmSyserr pm idxc d.con.em))
    (hC : (d.cov K pm idxc idxl).PosDef) (hL : ∀ a ∈ d.series, EnoughTimes a nq) (hne : d.line ≠ [])
    (memP memU memA : ℕ → ℝ) :
    lineRecs K nq d R pm idxc idxl f memP memU memA =
      (.ok (lineBlup K nq d R pm idxc idxl f), lineBlup K nq d R pm idxc idxl f, lineBlup K nq d R pm idxc idxl f) := by
  have hLi := trend_injective d nq hL
  have hA : (fun p => DSet.AS K R pm idxc memA p p) = fun p : Fin R.nall => pointCov K (pmTau pm idxc) (R.pt p) (R.pt p) :=
    funext fun p => AS_diag K R pm idxc memA p
  have hT : R.trendRec nq (nq * (1 + d.line.length)) = fun p : Fin R.nall => trendAt nq (nq * (1 + d.line.length)) (R.pt p) :=
    funext fun p => trendRow_pt R nq _ p.2
  unfold lineRecs lineBlup
  simp only [PCseq_eq, US_eq, hT]
  rw [← hA]
  refine Prod.ext ?_ (Prod.ext ?_ ?_)
  · exact lineRec1_eq f _ hC hLi
  · exact lineRec2_eq f _ hC hLi
  · exact lineRec3_eq K d pm idxc idxl nq f hcon hC hLi hne

/-! ### Non-negative errors -/

/-- Weighted prediction errors are non-negative when data and prediction are jointly distributed. -/
theorem predErr_nonneg {n : ℕ} {C : Matrix (Fin n) (Fin n) ℝ} {s : Fin n → ℝ} {a : ℝ} (M : Matrix (Fin (n + 1)) (Fin (n + 1)) ℝ)
    (hM : M.PosSemidef) (h0 : M 0 0 = a) (h1 : ∀ i : Fin n, M 0 i.succ = s i) (h1' : ∀ i : Fin n, M i.succ 0 = s i)
    (N : Fin n → ℝ) (hN : ∀ i, 0 ≤ N i)
    (h2 : ∀ i j : Fin n, C i j = M i.succ j.succ + if i = j then N i else 0) (w : Fin n → ℝ) :
    0 ≤ predErr C s a w := by
  let x : Fin (n + 1) → ℝ := Fin.cons (-1) w
  have hx : 0 ≤ x ⬝ᵥ M.mulVec x := by
    have := hM.dotProduct_mulVec_nonneg x
    simpa using this
  have hw : w ⬝ᵥ C.mulVec w = w ⬝ᵥ (Matrix.of fun i j : Fin n => M i.succ j.succ).mulVec w + ∑ i, N i * w i ^ 2 := by
    have : C = (Matrix.of fun i j : Fin n => M i.succ j.succ) + Matrix.diagonal N := by
      ext i j
      rw [h2, Matrix.add_apply, Matrix.of_apply, Matrix.diagonal_apply]
    rw [this, Matrix.add_mulVec, dotProduct_add]
    congr 1
    simp only [dotProduct, Matrix.mulVec_diagonal]
    exact Finset.sum_congr rfl fun i _ => by ring
  have hNs : 0 ≤ ∑ i, N i * w i ^ 2 := Finset.sum_nonneg fun i _ => mul_nonneg (hN i) (sq_nonneg _)
  have hxx : x ⬝ᵥ M.mulVec x = a - 2 * (w ⬝ᵥ s) + w ⬝ᵥ (Matrix.of fun i j : Fin n => M i.succ j.succ).mulVec w := by
    have e0 : M.mulVec x 0 = -a + w ⬝ᵥ s := by
      simp only [Matrix.mulVec, dotProduct, Fin.sum_univ_succ, x, Fin.cons_zero, Fin.cons_succ, h0, h1]
      rw [mul_neg_one]
      congr 1
      exact Finset.sum_congr rfl fun i _ => mul_comm _ _
    have e1 : ∀ i : Fin n, M.mulVec x i.succ = -s i + (Matrix.of fun i j : Fin n => M i.succ j.succ).mulVec w i := by
      intro i
      simp only [Matrix.mulVec, dotProduct, Fin.sum_univ_succ, x, Fin.cons_zero, Fin.cons_succ, h1', Matrix.of_apply]
      rw [mul_neg_one]
    rw [dotProduct, Fin.sum_univ_succ]
    simp only [e0, e1, x, Fin.cons_zero, Fin.cons_succ, mul_add, Finset.sum_add_distrib]
    have : ∑ i, w i * -s i = -(w ⬝ᵥ s) := by simp [dotProduct]
    rw [this]
    simp only [dotProduct]
    ring
  unfold predErr
  rw [hw]
  linarith

/-- The ideal covariances as functions of light curves and times. -/
theorem pointCov_ideal {e : KEnv} {J : ℕ} (h : e.Far J) (d : DSet) {x y : ℕ × ℕ} (hx : x.1 ≤ J) (hy : y.1 ≤ J) :
    sigIdeal e d x y = pointCov e.kernels e.taud (x.1, (d.ser x.1).t x.2) (y.1, (d.ser y.1).t y.2) := by
  obtain ⟨s, i⟩ := x
  obtain ⟨s', m⟩ := y
  simp only at hx hy
  rcases s with _ | s <;> rcases s' with _ | s'
  · rw [sigIdeal_cc]; rfl
  · rw [sigIdeal_cl h d (by omega)]; rfl
  · rw [sigIdeal_comm, sigIdeal_cl h d (by omega)]; rfl
  · rw [sigIdeal_ll h d (by omega) (by omega)]
    simp only [pointCov, KEnv.kernels]
    split
    · rename_i hh; rw [hh, e.sll_eq_sll2]
    · rfl

/-- A data set in which every light curve has the times `T`. -/
def allTimes (J : ℕ) (T : ℕ → ℝ) : DSet :=
  ⟨⟨0, T, fun _ => 0, fun _ => 0, 0⟩, List.replicate J ⟨0, T, fun _ => 0, fun _ => 0, 0⟩⟩

theorem allTimes_ser {J : ℕ} (T : ℕ → ℝ) {s : ℕ} (hs : s ≤ J) : ((allTimes J T).ser s).t = T := by
  unfold DSet.ser allTimes DSet.series
  rcases s with _ | s
  · rfl
  · simp [List.getD_eq_getElem?_getD, List.getElem?_replicate, show s < J by omega]

theorem pointCov_posSemidef {e : KEnv} {J : ℕ} (h : e.Far J) {n : ℕ} (x : Fin n → ℕ × ℝ) (hx : ∀ p, (x p).1 ≤ J) :
    (Matrix.of fun p q : Fin n => pointCov e.kernels e.taud (x p) (x q)).PosSemidef := by
  let T : ℕ → ℝ := fun p => if hp : p < n then (x ⟨p, hp⟩).2 else 0
  have := sigIdeal_posSemidef e (allTimes J T) (fun p : Fin n => ((x p).1, (p : ℕ)))
  convert this using 2
  ext p q
  rw [pointCov_ideal h _ (hx p) (hx q), allTimes_ser T (hx p), allTimes_ser T (hx q)]
  simp [T]

theorem pointCov_comm {e : KEnv} {J : ℕ} (h : e.Far J) {x y : ℕ × ℝ} (hx : x.1 ≤ J) (hy : y.1 ≤ J) :
    pointCov e.kernels e.taud x y = pointCov e.kernels e.taud y x := by
  have hM := (pointCov_posSemidef h ![x, y] (by intro p; fin_cases p <;> assumption)).1
  have := congrFun (congrFun hM 0) 1
  simpa using this.symm

theorem pt_le (d : DSet) {p : ℕ} (hp : p < d.nall) : (d.pt p).1 ≤ d.line.length := by
  have := locate_le d.series p hp
  simp only [DSet.series, List.length_cons] at this
  simp only [DSet.pt, DSet.series]; omega

theorem cov_pointCov {e : KEnv} (d : DSet) (h : e.Far d.line.length) (p q : Fin d.nall) :
    d.cov e.kernels e.pm e.idxc e.idxl p q = pointCov e.kernels e.taud (d.pt p) (d.pt q) +
      if p = q then noiseVar d e.pm e.idxc e.idxl (locate d.series p) else 0 := by
  rw [cov_split d h, Matrix.add_apply, Matrix.of_apply, Matrix.diagonal_apply,
    pointCov_ideal h d (pt_le d p.2) (pt_le d q.2)]
  rfl

end Mica
