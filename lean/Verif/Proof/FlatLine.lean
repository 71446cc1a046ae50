import Verif.Proof.FlatCon
import Verif.Proof.FlatIter
import Verif.Proof.FlatFill

/-! The likelihood of continuum and lines as a program on memory computes the formula of `Model/Line.lean`. -/

namespace Mica

open Matrix

/-- The pointers lie in the workspace one after the other, with room for `n` points, `q` trend coefficients and `l` lines. -/
structure LinePtrs.Laid (P : LinePtrs) (sz : Arr → ℕ) (n q l : ℕ) : Prop where
  a1 : P.Larr.arr = .sh .workspace
  a2 : P.ybuf.arr = .sh .workspace
  a3 : P.y.arr = .sh .workspace
  a4 : P.yq.arr = .sh .workspace
  a5 : P.Cq.arr = .sh .workspace
  a6 : P.W.arr = .sh .workspace
  a7 : P.D.arr = .sh .workspace
  a8 : P.phi.arr = .sh .workspace
  a9 : P.fe.arr = .sh .workspace
  a10 : P.narr.arr = .sh .workspace
  l1 : P.Larr.off + n * q ≤ P.ybuf.off
  l2 : P.ybuf.off + n * q ≤ P.y.off
  l3 : P.y.off + n ≤ P.yq.off
  l4 : P.yq.off + q ≤ P.Cq.off
  l5 : P.Cq.off + q * q ≤ P.W.off
  l6 : P.W.off + n ≤ P.D.off
  l7 : P.D.off + n ≤ P.phi.off
  l8 : P.phi.off + n ≤ P.fe.off
  l9 : P.fe.off + n ≤ P.narr.off
  l10 : P.narr.off + (l + 2) / 2 ≤ sz (.sh .workspace)

/-- The fluxes are left alone. -/
def KeepsFlux (M M' : Mem) : Prop := ∀ A x, (∀ b, A ≠ .sh b) → M' A x = M A x

theorem KeepsFlux.trans {M M' M'' : Mem} (h : KeepsFlux M M') (h' : KeepsFlux M' M'') : KeepsFlux M M'' :=
  fun A x hA => (h' A x hA).trans (h A x hA)

theorem OnlyWs.keeps {M M' : Mem} (h : OnlyWs M M') : KeepsFlux M M' := fun A x hA => h A x (hA _)

theorem lead_ssC (K : Kernels) (d : DSet) (pm : ℕ → ℝ) (idxc : ℕ) (idxl : ℕ → ℕ) :
    block (arrayOf (d.cov K pm idxc idxl)) 0 d.con.n 0 d.con.n =
      ssC d.con.t 1 (1 / pmTau pm idxc) (fun i => d.con.fe i / pmSigma pm idxc) (pmSyserr pm idxc d.con.em / pmSigma pm idxc)
        d.con.n := by
  ext i j
  have hi := con_lt_nall d i.2
  have hj := con_lt_nall d j.2
  have := cov_lead K d pm idxc idxl ⟨i, hi⟩ ⟨j, hj⟩ i.2 j.2
  simp only [block, arrayOf, Nat.zero_add, hi, hj, dif_pos]
  rw [this]
  simp [ssC, drwCov, Fin.ext_iff]

theorem fLineTerm_spec {E : IntCells} {sz : Arr → ℕ} {nq : ℕ} {P : LinePtrs} {K : Kernels} {d : DSet} {k : ℕ} {pm : ℕ → ℝ}
    {idxc : ℕ} {idxl : ℕ → ℕ} {M : Mem} (hq : 0 < nq) (hn : 0 < d.con.n) (hl : ∀ a ∈ d.line, 0 < a.n)
    (hP : P.Laid sz d.nall (nq * (1 + d.line.length)) d.line.length)
    (hp1 : d.nall ≤ sz (.sh .ipiv)) (hp2 : nq * (1 + d.line.length) ≤ sz (.sh .ipiv))
    (hinv : 2 * (d.nall * d.nall) ≤ sz (.sh .inv)) (hpc : d.nall * d.nall ≤ sz (.sh .pcmat))
    (hf : d.nall ≤ sz (.fall k)) (vf : ∀ i < d.nall, M (.fall k) i = d.fall i)
    (hcon : ConOK d.con (pmSyserr pm idxc d.con.em)) (hC : (d.cov K pm idxc idxl).PosDef) :
    (lineTerm4 nq d pm idxc (d.cov K pm idxc idxl) = .ok none ∧
      fLineTerm E sz nq P K d k pm idxc idxl M = .ok (some .reject)) ∨
    ∃ v M', lineTerm4 nq d pm idxc (d.cov K pm idxc idxl) = .ok (some v) ∧
      fLineTerm E sz nq P K d k pm idxc idxl M = .ok (some (.goOn v M')) ∧ KeepsFlux M M' := by
  have hcn : d.con.n ≤ d.nall := by simp only [DSet.nall, DSet.series, totalN]; omega
  obtain ⟨Larr, ybuf, y, yq, Cq, W, D, phi, fe, narr⟩ := P
  obtain ⟨a1, a2, a3, a4, a5, a6, a7, a8, a9, a10, l1, l2, l3, l4, l5, l6, l7, l8, l9, l10⟩ := hP
  dsimp only at a1 a2 a3 a4 a5 a6 a7 a8 a9 a10 l1 l2 l3 l4 l5 l6 l7 l8 l9 l10
  have ins : ∀ {p : DPtr} {l : ℕ}, p.arr = .sh .workspace → p.off + l ≤ sz (.sh .workspace) → inside sz p l := by
    intro p l h1 h2
    unfold inside; rw [h1]; exact h2
  have apF : ∀ {p : DPtr} {l r : ℕ}, p.arr = .sh .workspace → apart p l ⟨.fall k, 0⟩ r := by
    intro p l r h1
    left; rw [h1]; simp
  have apC : ∀ {p : DPtr} {l r : ℕ}, p.arr = .sh .workspace → apart p l ⟨.sh .pcmat, 0⟩ r := by
    intro p l r h1
    left; rw [h1]; simp
  have inF : inside sz ⟨.fall k, 0⟩ d.nall := by show 0 + d.nall ≤ sz (.fall k); omega
  have inC : inside sz ⟨.sh .pcmat, 0⟩ (d.nall * d.nall) := by show 0 + _ ≤ sz (.sh .pcmat); omega
  have hnall : 0 < d.nall := by omega
  have hsum : d.con.n + (d.line.map LC.n).sum = d.nall := by rw [← totalN_eq_sum]; rfl
  have hqa : 0 < nq * (1 + d.line.length) := Nat.mul_pos hq (by omega)
  unfold fLineTerm lineTerm4
  dsimp only
  have hs := pmSigma_pos pm idxc
  have hpos := fun i hi => (ss_pos (t := d.con.t) (sigma := fun i => d.con.fe i / pmSigma pm idxc)
    (syserr := pmSyserr pm idxc d.con.em / pmSigma pm idxc) one_pos (one_div_pos.2 (pmTau_pos pm idxc)) hcon.1
    (ConOK_scale hs hcon) i hi).2.2
  have hlead := lead_ssC K d pm idxc idxl
  generalize pmSyserr pm idxc d.con.em / pmSigma pm idxc = syserr at *
  generalize pmTau pm idxc = tau at *
  generalize pmSigma pm idxc = sigma at *
  have m2 : nq * (1 + d.line.length) ≤ d.nall * (nq * (1 + d.line.length)) := Nat.le_mul_of_pos_left _ hnall
  have m3 : d.nall ≤ d.nall * (nq * (1 + d.line.length)) := Nat.le_mul_of_pos_right d.nall hqa
  -- the trend matrix
  obtain ⟨M1, e1, o1, v1⟩ := fTrend_spec (sz := sz) (d := d) (nq := nq) (L := Larr) (M := M) hq (ins a1 (by omega))
  rw [e1, Res.ok_bind]
  -- sizes
  obtain ⟨M2, e2, o2, v2⟩ := fNarr_spec (E := E) (sz := sz) (p := narr) (n0 := d.con.n) (l := d.line) (M := M1) (ins a10 l10)
  rw [e2, Res.ok_bind]
  -- covariance
  obtain ⟨M3, e3, o3, v3⟩ := fCovar_spec (sz := sz) K d pm idxc idxl M2 hpc
  rw [e3, Res.ok_bind]
  -- errors
  obtain ⟨M4, e4, s4⟩ := forD_const (sz := sz) (p := fe) (len := d.con.n) (T := fun i => d.con.fe i / sigma) (fun i => i) d.con.n
    (fun i => d.con.fe i / sigma) M3 (ins a9 (by omega)) (fun _ h => h) (fun _ _ => rfl)
  rw [e4, Res.ok_bind]
  have o4 := s4.1
  have v4 : ∀ i < d.con.n, M4 fe.arr (fe.off + i) = d.con.fe i / sigma := fun i hi => s4.2.1 i ⟨i, hi, rfl⟩
  -- inverse of the covariance
  have hsymm := arrayOf_symm (posDef_symm hC)
  obtain ⟨M5, e5, o5, v5⟩ := fSemiIter_spec (E := E) (sz := sz) (t := d.con.t) (sigma := fun i => d.con.fe i / sigma) (a1 := 1)
    (c1 := 1 / tau) (syserr := syserr) (rd := fun i => ldd sz fe i) (W := W) (D := D) (phi := phi) (narr := narr) (nt := d.nall)
    (n0 := d.con.n) (ns := d.line.map LC.n) (M := M4) (A := arrayOf (d.cov K pm idxc idxl)) hsymm
    (by rw [LeadPD, block_arrayOf]; exact hC) hn (by
      intro q h
      obtain ⟨a, ha, rfl⟩ := List.mem_map.1 h
      exact hl a ha) hsum a6 a7 a8 a10 (ins a6 (by omega)) (ins a7 (by omega)) (ins a8 (by omega)) (by omega) (by omega) (by omega)
    (by
      intro i hi M' hM'
      rw [ldd_ok _ (by rw [a9]; omega), hM' fe.arr (fe.off + i), v4 i hi]
      rintro (⟨-, h1, h2⟩ | ⟨-, h1, h2⟩ | ⟨-, h1, h2⟩) <;> omega)
    hinv hpc hp1 hcon.1 hpos hlead
    (by
      intro i q hiq
      rw [← v2 i q hiq]
      unfold ldInt ldd
      split
      · congr 2
        rw [o4, o3]
        · rintro ⟨h, -⟩; rw [a10] at h; simp at h
        · rintro ⟨-, h1, h2⟩; omega
      · rfl)
    (by
      intro i hi j hj
      rw [o4, v3 i hi j hj]
      rintro ⟨h, -⟩; rw [a9] at h; simp at h)
  rw [List.length_map] at e5
  rw [e5, thenO_some]
  dsimp only
  generalize hsi : semiIter d.con.t 1 (1 / tau) (fun i => d.con.fe i / sigma) syserr (arrayOf (d.cov K pm idxc idxl)) d.con.n
    (d.line.map LC.n) = si at *
  generalize hIPC : block si.2.1 0 d.nall 0 d.nall = IPC at *
  have vL5 : matAt M5 Larr d.nall (nq * (1 + d.line.length)) = d.trend nq := by
    rw [← v1]
    ext i j
    have := idx_lt i.2 j.2
    show M5 Larr.arr _ = M1 Larr.arr _
    rw [o5, o4, o3, o2]
    · rintro ⟨-, h1, h2⟩; omega
    · rintro ⟨h, -⟩; rw [a1] at h; simp at h
    · rintro ⟨-, h1, h2⟩; omega
    · rintro (⟨-, h1, h2⟩ | ⟨-, h1, h2⟩ | ⟨-, h1, h2⟩ | h | h)
      · omega
      · omega
      · omega
      · rw [a1] at h; simp at h
      · rw [a1] at h; simp at h
  have w5 : KeepsFlux M M5 := by
    refine (o1.ws a1).keeps.trans <| (o2.ws a10).keeps.trans <| KeepsFlux.trans (M' := M3) ?_ <| (o4.ws a9).keeps.trans ?_
    · intro A x hA
      exact o3 _ _ fun h => hA _ h.1
    · intro A x hA
      apply o5
      rintro (⟨h, -⟩ | ⟨h, -⟩ | ⟨h, -⟩ | h | h)
      · exact hA _ (h.trans a6)
      · exact hA _ (h.trans a7)
      · exact hA _ (h.trans a8)
      · exact hA _ h
      · exact hA _ h
  -- ybuf = C^-1 L
  obtain ⟨M6, e6, o6, v6⟩ := fMN_spec (sz := sz) (a := ⟨.sh .pcmat, 0⟩) (b := Larr) (c := ybuf) (m := d.nall)
    (n := nq * (1 + d.line.length)) (k := d.nall) (M := M5) (alpha := 1) (beta := 0) hnall hqa hnall
    inC (ins a1 (by omega)) (ins a2 (by omega)) (apC a2) (.inr (by omega))
  have e6' : fMN sz ⟨.sh .pcmat, 0⟩ Larr ybuf d.nall (nq * (1 + d.line.length)) d.nall M5 = .ok M6 := e6
  rw [e6', Res.ok_bind]
  rw [v5, vL5, one_smul, zero_smul, add_zero] at v6
  have vL6 : matAt M6 Larr d.nall (nq * (1 + d.line.length)) = d.trend nq := (o6.mat (.inr (by omega))).trans vL5
  -- Cq = L^T ybuf
  obtain ⟨M7, e7, o7, v7⟩ := fMNTA_spec (sz := sz) (a := Larr) (b := ybuf) (c := Cq) (m := nq * (1 + d.line.length))
    (n := nq * (1 + d.line.length)) (k := d.nall) (M := M6) (alpha := 1) (beta := 0) hqa hqa hnall
    (ins a1 (by rw [Nat.mul_comm]; omega)) (ins a2 (by omega)) (ins a5 (by omega))
    (.inr (by rw [Nat.mul_comm _ d.nall]; omega)) (.inr (by omega))
  have e7' : fMNTA sz Larr ybuf Cq (nq * (1 + d.line.length)) (nq * (1 + d.line.length)) d.nall M6 = .ok M7 := e7
  rw [e7', Res.ok_bind]
  rw [vL6, v6, one_smul, zero_smul, add_zero] at v7
  -- yq = ybuf^T f
  obtain ⟨M8, e8, o8, v8⟩ := fMatvecTA_spec (sz := sz) (a := ybuf) (x := ⟨.fall k, 0⟩) (y := yq) (m := d.nall)
    (n := nq * (1 + d.line.length)) (M := M7)
    (alpha := 1) (beta := 0) hqa (ins a2 (by omega)) inF (ins a4 (by omega)) (.inr (by omega)) (apF a4)
  have e8' : fMatvecMNTA sz ybuf d.nall (nq * (1 + d.line.length)) ⟨.fall k, 0⟩ yq M7 = .ok M8 := e8
  rw [e8', Res.ok_bind]
  have w7 : KeepsFlux M M7 := (w5.trans (o6.ws a2).keeps).trans (o7.ws a5).keeps
  have vF7 : vecAt M7 ⟨.fall k, 0⟩ d.nall = fun i : Fin d.nall => d.fall i := by
    ext i
    show M7 (.fall k) (0 + i) = _
    rw [w7 _ _ (by simp), Nat.zero_add, vf i i.2]
  have vB7 : matAt M7 ybuf d.nall (nq * (1 + d.line.length)) = IPC * d.trend nq := (o7.mat (.inr (by omega))).trans v6
  rw [vB7, vF7, one_smul, zero_smul, add_zero] at v8
  have vC8 : matAt M8 Cq (nq * (1 + d.line.length)) (nq * (1 + d.line.length)) = (d.trend nq)ᵀ * (IPC * d.trend nq) :=
    (o8.mat (.inr (by omega))).trans v7
  -- Cq^-1
  by_cases hdet : (upperSym ((d.trend nq)ᵀ * (IPC * d.trend nq))).det = 0
  · left
    rw [if_pos (.inl hdet), fInverseSymat_none (ins a5 (by omega)) hp2 (by rw [vC8]; exact hdet), Res.ok_bind]
    exact ⟨rfl, rfl⟩
  obtain ⟨M9, e9, o9, v9⟩ := fInverseSymat_spec (sz := sz) (p := Cq) (n := nq * (1 + d.line.length)) (M := M8)
    (ins a5 (by omega)) hp2 (by rw [vC8]; exact hdet)
  rw [e9, Res.ok_bind]
  dsimp only
  rw [vC8] at v9 ⊢
  by_cases hsg : signSymat ((d.trend nq)ᵀ * (IPC * d.trend nq)) = -1
  · left
    rw [if_pos (.inr hsg), if_pos hsg]
    exact ⟨rfl, rfl⟩
  rw [if_neg (by simp only [hdet, hsg, or_self, not_false_eq_true]), if_neg hsg]
  -- ybuf = Cq yq
  obtain ⟨M10, e10, o10, v10⟩ := fMN_spec (sz := sz) (a := Cq) (b := yq) (c := ybuf) (m := nq * (1 + d.line.length)) (n := 1)
    (k := nq * (1 + d.line.length)) (M := M9) (alpha := 1) (beta := 0) hqa Nat.one_pos hqa
    (ins a5 (by omega)) (ins a4 (by omega)) (ins a2 (by omega)) (.inr (by omega)) (.inr (by omega))
  have e10' : fMN sz Cq yq ybuf (nq * (1 + d.line.length)) 1 (nq * (1 + d.line.length)) M9 = .ok M10 := e10
  rw [e10', Res.ok_bind]
  rw [v9, one_smul, zero_smul, add_zero] at v10
  have vq9 : vecAt M9 yq (nq * (1 + d.line.length)) = (IPC * d.trend nq)ᵀ.mulVec fun i : Fin d.nall => d.fall i :=
    (o9.vec (.inr (by omega))).trans v8
  have vb10 : vecAt M10 ybuf (nq * (1 + d.line.length)) = (inverseSymat ((d.trend nq)ᵀ * (IPC * d.trend nq))).mulVec
      ((IPC * d.trend nq)ᵀ.mulVec fun i : Fin d.nall => d.fall i) := by
    ext i
    have h := congrFun (congrFun v10 i) 0
    have h0 : vecAt M10 ybuf (nq * (1 + d.line.length)) i = matAt M10 ybuf (nq * (1 + d.line.length)) 1 i 0 := by
      simp [vecAt, matAt]
    rw [h0, h, ← vq9]
    simp [Matrix.mul_apply, Matrix.mulVec, dotProduct, vecAt, matAt]
  -- y = f
  obtain ⟨M11, e11, o11, v11⟩ := copyD_spec (sz := sz) (dst := y) (src := ⟨.fall k, 0⟩) (n := d.nall) (M := M10)
    (ins a3 (by omega)) inF (apF a3)
  rw [e11, Res.ok_bind]
  have w10 : OnlyWs M7 M10 := (((o8.ws a4).trans (o9.ws a5)).trans (o10.ws a2))
  have vF10 : vecAt M10 ⟨.fall k, 0⟩ d.nall = fun i : Fin d.nall => d.fall i := by
    rw [← vF7]; ext i
    exact w10.keeps _ _ (by simp)
  rw [vF10] at v11
  -- y = f - L q
  obtain ⟨M12, e12, o12, v12⟩ := fMatvec_spec (sz := sz) (a := Larr) (x := ybuf) (y := y) (m := d.nall)
    (n := nq * (1 + d.line.length)) (M := M11)
    (alpha := -1) (beta := 1) hqa (ins a1 (by omega)) (ins a2 (by omega)) (ins a3 (by omega)) (.inr (by omega)) (.inr (by omega))
  rw [e12, Res.ok_bind]
  have vL11 : matAt M11 Larr d.nall (nq * (1 + d.line.length)) = d.trend nq :=
    (o11.mat (.inr (by omega))).trans <| (o10.mat (.inr (by omega))).trans <| (o9.mat (.inr (by omega))).trans <|
    (o8.mat (.inr (by omega))).trans <| (o7.mat (.inr (by omega))).trans vL6
  have vb11 : vecAt M11 ybuf (nq * (1 + d.line.length)) = vecAt M10 ybuf (nq * (1 + d.line.length)) := o11.vec (.inr (by omega))
  rw [vL11, vb11, vb10, v11] at v12
  -- ybuf = C^-1 y
  have w12 : OnlyWs M5 M12 := ((o6.ws a2).trans (o7.ws a5)).trans <| w10.trans <| (o11.ws a3).trans (o12.ws a3)
  have vI12 : matAt M12 ⟨.sh .pcmat, 0⟩ d.nall d.nall = IPC := by
    rw [← v5]; ext i j
    exact w12 _ _ (by simp)
  obtain ⟨M13, e13, o13, v13⟩ := fMatvec_spec (sz := sz) (a := ⟨.sh .pcmat, 0⟩) (x := y) (y := ybuf) (m := d.nall)
    (n := d.nall) (M := M12) (alpha := 1) (beta := 0) hnall inC (ins a3 (by omega)) (ins a2 (by omega)) (apC a2)
    (.inr (by omega))
  have e13' : fMatvec sz ⟨.sh .pcmat, 0⟩ y d.nall ybuf M12 = .ok M13 := e13
  rw [e13', Res.ok_bind, ddot_spec (ins a3 (by omega)) (ins a2 (by omega)), Res.ok_bind]
  have vy13 : vecAt M13 y d.nall = vecAt M12 y d.nall := o13.vec (.inr (by omega))
  rw [vI12, one_smul, zero_smul, add_zero] at v13
  rw [v13, vy13, v12]
  split
  · exact .inl ⟨rfl, rfl⟩
  · exact .inr ⟨_, M13, rfl, rfl, w5.trans (w12.keeps.trans (o13.ws a2).keeps)⟩

end Mica
