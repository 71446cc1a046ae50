import Verif.Proof.FlatSemi

/-! The likelihood of the continuum as a program on memory computes the formula of `Model/Like.lean`. -/

namespace Mica

open Matrix

/-- The pointers lie in the workspace one after the other, with room for `n` points. -/
structure ConPtrs.Laid (P : ConPtrs) (sz : Arr → ℕ) (nq n : ℕ) : Prop where
  a1 : P.Larr.arr = .sh .workspace
  a2 : P.ybuf.arr = .sh .workspace
  a3 : P.y.arr = .sh .workspace
  a4 : P.yq.arr = .sh .workspace
  a5 : P.Cq.arr = .sh .workspace
  a6 : P.W.arr = .sh .workspace
  a7 : P.D.arr = .sh .workspace
  a8 : P.phi.arr = .sh .workspace
  l1 : P.Larr.off + n * nq ≤ P.ybuf.off
  l2 : P.ybuf.off + n * nq ≤ P.y.off
  l3 : P.y.off + n ≤ P.yq.off
  l4 : P.yq.off + nq ≤ P.Cq.off
  l5 : P.Cq.off + nq * nq ≤ P.W.off
  l6 : P.W.off + n ≤ P.D.off
  l7 : P.D.off + n ≤ P.phi.off
  l8 : P.phi.off + n ≤ sz (.sh .workspace)

/-- Memory differs in the workspace only. -/
def OnlyWs (M M' : Mem) : Prop := Only (fun A _ => A = .sh .workspace) M M'

theorem Only.ws {p : DPtr} {l : ℕ} {M M' : Mem} (h : Only (reg p l) M M') (hp : p.arr = .sh .workspace) : OnlyWs M M' :=
  h.mono fun _ _ ⟨h1, _⟩ => h1.trans hp

theorem OnlyWs.trans {M M' M'' : Mem} (h : OnlyWs M M') (h' : OnlyWs M' M'') : OnlyWs M M'' := Only.trans h h'

theorem OnlyWs.flux {M M' : Mem} (h : OnlyWs M M') (k i : ℕ) : M' (.flux k) i = M (.flux k) i := h _ _ (by simp)

theorem fConTerm_spec {sz : Arr → ℕ} {nq : ℕ} {P : ConPtrs} {d : LC} {k : ℕ} {pm : ℕ → ℝ} {idx : ℕ} {M : Mem}
    (hq : 0 < nq) (hn : 0 < d.n) (hP : P.Laid sz nq d.n)
    (hp : nq ≤ sz (.sh .ipiv)) (hf : d.n ≤ sz (.flux k)) (vf : ∀ i < d.n, M (.flux k) i = d.f i) :
    (conTermSemi nq d pm idx = none ∧ fConTerm sz nq P d k pm idx M = .ok none) ∨
    ∃ v M', conTermSemi nq d pm idx = some v ∧ fConTerm sz nq P d k pm idx M = .ok (some (v, M')) ∧ OnlyWs M M' := by
  have m2 : nq ≤ d.n * nq := Nat.le_mul_of_pos_left nq hn
  have m3 : d.n ≤ d.n * nq := Nat.le_mul_of_pos_right d.n hq
  obtain ⟨Larr, ybuf, y, yq, Cq, W, D, phi⟩ := P
  obtain ⟨a1, a2, a3, a4, a5, a6, a7, a8, l1, l2, l3, l4, l5, l6, l7, l8⟩ := hP
  dsimp only at a1 a2 a3 a4 a5 a6 a7 a8 l1 l2 l3 l4 l5 l6 l7 l8
  have ins : ∀ {p : DPtr} {l : ℕ}, p.arr = .sh .workspace → p.off + l ≤ sz (.sh .workspace) → inside sz p l := by
    intro p l h1 h2
    unfold inside; rw [h1]; exact h2
  have apF : ∀ {p : DPtr} {l r : ℕ}, p.arr = .sh .workspace → apart p l ⟨.flux k, 0⟩ r := by
    intro p l r h1
    left; rw [h1]; simp
  have inF : inside sz ⟨.flux k, 0⟩ d.n := by show 0 + d.n ≤ sz (.flux k); omega
  unfold fConTerm conTermSemi
  dsimp only
  generalize pmSyserr pm idx d.em = syserr
  generalize pmTau pm idx = tau
  generalize pmSigma pm idx * pmSigma pm idx = sigma2
  -- the trend matrix
  obtain ⟨M1, e1, o1, v1⟩ := fTrendCon_spec (sz := sz) (t := d.t) (n := d.n) (L := Larr) (M := M) hq
    (ins a1 (by omega))
  rw [e1, Res.ok_bind]
  -- W, D, phi
  obtain ⟨M2, e2, o2, vW2, vD2, vP2⟩ := fSemi_spec (sz := sz) (t := d.t) (n := d.n) (a1 := sigma2) (c1 := 1 / tau) (sigma := d.fe)
    (rd := fun i _ => .ok (d.fe i))
    (syserr := syserr) (W := W) (D := D) (phi := phi) (M := M1) hn
    (ins a6 (by omega)) (ins a7 (by omega)) (ins a8 (by omega)) (.inr (by omega)) (.inr (by omega)) (.inr (by omega))
    (fun _ _ _ _ => rfl)
  rw [e2, Res.ok_bind, fLndet_spec (ins a7 (by omega)) vD2, Res.ok_bind]
  have vL2 : matAt M2 Larr d.n nq = trendMat d.t d.n nq := by
    rw [← v1]
    ext i j
    have := idx_lt i.2 j.2
    apply o2
    rintro (⟨-, h1, h2⟩ | ⟨-, h1, h2⟩ | ⟨-, h1, h2⟩) <;> omega
  have w2 : OnlyWs M1 M2 := o2.mono fun A x h => by
    rcases h with ⟨h, -⟩ | ⟨h, -⟩ | ⟨h, -⟩
    · exact h.trans a6
    · exact h.trans a7
    · exact h.trans a8
  generalize hWf : ssW d.t sigma2 (1 / tau) d.fe syserr = Wf at *
  generalize hDf : ssD d.t sigma2 (1 / tau) d.fe syserr = Df at *
  generalize hPf : ssPhi d.t (1 / tau) = Pf at *
  -- ybuf = C^-1 L
  obtain ⟨M3, e3, o3, v3⟩ := fSolveMat_spec (sz := sz) (Y := Larr) (W := W) (D := D) (phi := phi) (Z := ybuf) (n := d.n) (m := nq)
    (a1 := sigma2) (M := M2) (w := Wf) (d := Df) (ph := Pf) hn
    (ins a1 (by omega)) (ins a6 (by omega)) (ins a7 (by omega)) (ins a8 (by omega)) (ins a2 (by omega))
    (.inr (by omega)) (.inr (by omega)) (.inr (by omega)) (.inr (by omega)) vW2 vD2 vP2
  rw [e3, Res.ok_bind]
  set yb : Matrix (Fin d.n) (Fin nq) ℝ :=
    fun i j => ssSolveMat (fun i j => if j = 0 then 1 else d.t i ^ j) Wf Df Pf d.n sigma2 i j with hyb
  have vB3 : matAt M3 ybuf d.n nq = yb := by
    ext i j
    show M3 ybuf.arr (ybuf.off + ((i : ℕ) * nq + j)) = _
    rw [v3 i i.2 j j.2, hyb]
    unfold ssSolveMat
    refine ssSolve_congr (fun l hl => ?_) (fun _ _ => rfl) (fun _ _ => rfl) (fun _ _ => rfl) hn i.2
    exact congrFun (congrFun vL2 ⟨l, hl⟩) j
  have vL3 : matAt M3 Larr d.n nq = trendMat d.t d.n nq := (o3.mat (.inr (by omega))).trans vL2
  have kW3 : ∀ i < d.n, M3 W.arr (W.off + i) = Wf i := fun i hi =>
    (o3.out (r := d.n) (.inr (by omega)) hi).trans (vW2 i hi)
  have kD3 : ∀ i < d.n, M3 D.arr (D.off + i) = Df i := fun i hi =>
    (o3.out (r := d.n) (.inr (by omega)) hi).trans (vD2 i hi)
  have kP3 : ∀ i < d.n, M3 phi.arr (phi.off + i) = Pf i := fun i hi =>
    (o3.out (r := d.n) (.inr (by omega)) hi).trans (vP2 i hi)
  -- Cq = L^T ybuf
  obtain ⟨M4, e4, o4, v4⟩ := fMNTA_spec (sz := sz) (a := Larr) (b := ybuf) (c := Cq) (m := nq) (n := nq) (k := d.n) (M := M3)
    (alpha := 1) (beta := 0) hq hq hn
    (ins a1 (by rw [Nat.mul_comm]; omega)) (ins a2 (by omega)) (ins a5 (by omega))
    (.inr (by rw [Nat.mul_comm nq d.n]; omega)) (.inr (by omega))
  have e4' : fMNTA sz Larr ybuf Cq nq nq d.n M3 = .ok M4 := e4
  rw [e4', Res.ok_bind]
  rw [vL3, vB3, one_smul, zero_smul, add_zero] at v4
  -- yq = ybuf^T f
  obtain ⟨M5, e5, o5, v5⟩ := fMatvecTA_spec (sz := sz) (a := ybuf) (x := ⟨.flux k, 0⟩) (y := yq) (m := d.n) (n := nq) (M := M4)
    (alpha := 1) (beta := 0) hq (ins a2 (by omega)) inF (ins a4 (by omega)) (.inr (by omega)) (apF a4)
  have e5' : fMatvecMNTA sz ybuf d.n nq ⟨.flux k, 0⟩ yq M4 = .ok M5 := e5
  rw [e5', Res.ok_bind]
  have w4 : OnlyWs M M4 := ((((o1.ws a1).trans w2).trans (o3.ws a2)).trans (o4.ws a5))
  have vF4 : vecAt M4 ⟨.flux k, 0⟩ d.n = fun i : Fin d.n => d.f i := by
    ext i
    show M4 (.flux k) (0 + i) = _
    rw [w4.flux, Nat.zero_add, vf i i.2]
  have vB4 : matAt M4 ybuf d.n nq = yb := (o4.mat (.inr (by omega))).trans vB3
  rw [vB4, vF4, one_smul, zero_smul, add_zero] at v5
  have vC5 : matAt M5 Cq nq nq = (trendMat d.t d.n nq)ᵀ * yb := (o5.mat (.inr (by omega))).trans v4
  -- Cq^-1
  by_cases hdet : (upperSym ((trendMat d.t d.n nq)ᵀ * yb)).det = 0
  · left
    rw [if_pos hdet, fInverseSymat_none (ins a5 (by omega)) hp (by rw [vC5]; exact hdet), Res.ok_bind]
    exact ⟨rfl, rfl⟩
  right
  rw [if_neg hdet]
  obtain ⟨M6, e6, o6, v6⟩ := fInverseSymat_spec (sz := sz) (p := Cq) (n := nq) (M := M5) (ins a5 (by omega)) hp
    (by rw [vC5]; exact hdet)
  rw [e6, Res.ok_bind]
  dsimp only
  rw [vC5] at v6 ⊢
  -- ybuf = Cq yq
  obtain ⟨M7, e7, o7, v7⟩ := fMN_spec (sz := sz) (a := Cq) (b := yq) (c := ybuf) (m := nq) (n := 1) (k := nq) (M := M6)
    (alpha := 1) (beta := 0) hq Nat.one_pos hq
    (ins a5 (by omega)) (ins a4 (by omega)) (ins a2 (by omega)) (.inr (by omega)) (.inr (by omega))
  have e7' : fMN sz Cq yq ybuf nq 1 nq M6 = .ok M7 := e7
  rw [e7', Res.ok_bind]
  rw [v6, one_smul, zero_smul, add_zero] at v7
  have vq6 : vecAt M6 yq nq = ybᵀ.mulVec fun i : Fin d.n => d.f i := (o6.vec (.inr (by omega))).trans v5
  have vb7 : vecAt M7 ybuf nq = (inverseSymat ((trendMat d.t d.n nq)ᵀ * yb)).mulVec (ybᵀ.mulVec fun i : Fin d.n => d.f i) := by
    ext i
    have h := congrFun (congrFun v7 i) 0
    have h0 : vecAt M7 ybuf nq i = matAt M7 ybuf nq 1 i 0 := by simp [vecAt, matAt]
    rw [h0, h, ← vq6]
    simp [Matrix.mul_apply, Matrix.mulVec, dotProduct, vecAt, matAt]
  -- y = f
  obtain ⟨M8, e8, o8, v8⟩ := copyD_spec (sz := sz) (dst := y) (src := ⟨.flux k, 0⟩) (n := d.n) (M := M7)
    (ins a3 (by omega)) inF (apF a3)
  rw [e8, Res.ok_bind]
  have w7 : OnlyWs M4 M7 := (((o5.ws a4).trans (o6.ws a5)).trans (o7.ws a2))
  have vF7 : vecAt M7 ⟨.flux k, 0⟩ d.n = fun i : Fin d.n => d.f i := by
    rw [← vF4]; ext i
    exact w7.flux k _
  rw [vF7] at v8
  -- y = f - L q
  obtain ⟨M9, e9, o9, v9⟩ := fMatvec_spec (sz := sz) (a := Larr) (x := ybuf) (y := y) (m := d.n) (n := nq) (M := M8)
    (alpha := -1) (beta := 1) hq (ins a1 (by omega)) (ins a2 (by omega)) (ins a3 (by omega)) (.inr (by omega)) (.inr (by omega))
  rw [e9, Res.ok_bind]
  have vL8 : matAt M8 Larr d.n nq = trendMat d.t d.n nq :=
    (o8.mat (.inr (by omega))).trans <| (o7.mat (.inr (by omega))).trans <| (o6.mat (.inr (by omega))).trans <|
    (o5.mat (.inr (by omega))).trans <| (o4.mat (.inr (by omega))).trans vL3
  have vb8 : vecAt M8 ybuf nq = vecAt M7 ybuf nq := o8.vec (.inr (by omega))
  rw [vL8, vb8, vb7, v8] at v9
  -- ybuf = C^-1 y
  have keep : ∀ {p : DPtr} {v : ℕ → ℝ}, Cq.off + nq * nq ≤ p.off → (∀ i < d.n, M3 p.arr (p.off + i) = v i) →
      ∀ i < d.n, M9 p.arr (p.off + i) = v i := by
    intro p v h hv i hi
    rw [o9.out (r := d.n) (.inr (by omega)) hi, o8.out (r := d.n) (.inr (by omega)) hi, o7.out (r := d.n) (.inr (by omega)) hi,
      o6.out (r := d.n) (.inr (by omega)) hi, o5.out (r := d.n) (.inr (by omega)) hi, o4.out (r := d.n) (.inr (by omega)) hi, hv i hi]
  obtain ⟨M10, e10, o10, v10⟩ := fSolveVec_spec (sz := sz) (y := y) (W := W) (D := D) (phi := phi) (z := ybuf) (n := d.n)
    (a1 := sigma2) (M := M9) (w := Wf) (d := Df) (ph := Pf) hn
    (ins a3 (by omega)) (ins a6 (by omega)) (ins a7 (by omega)) (ins a8 (by omega)) (ins a2 (by omega))
    (.inr (by omega)) (.inr (by omega)) (.inr (by omega)) (.inr (by omega))
    (keep (by omega) kW3) (keep (by omega) kD3) (keep (by omega) kP3)
  rw [e10, Res.ok_bind, ddot_spec (ins a3 (by omega)) (ins a2 (by omega)), Res.ok_bind]
  have vy10 : vecAt M10 y d.n = vecAt M9 y d.n := o10.vec (.inr (by omega))
  refine ⟨_, M10, rfl, ?_, w4.trans (w7.trans (((o8.ws a3).trans (o9.ws a3)).trans (o10.ws a2)))⟩
  congr 6
  · rw [vy10, v9]
  · ext i
    show M10 ybuf.arr (ybuf.off + i) = _
    rw [v10 i i.2]
    refine ssSolve_congr (fun l hl => ?_) (fun _ _ => rfl) (fun _ _ => rfl) (fun _ _ => rfl) hn i.2
    rw [dif_pos hl]
    exact congrFun v9 ⟨l, hl⟩

theorem conPtrs_laid {sz : Arr → ℕ} {nq nmax n : ℕ} (hn : n ≤ nmax)
    (hw : nmax * nq + nmax * nq + nmax + nq + nq * nq + nmax + nmax + nmax ≤ sz (.sh .workspace)) :
    (conPtrs nq nmax).Laid sz nq n := by
  have m1 : n * nq ≤ nmax * nq := Nat.mul_le_mul_right nq hn
  constructor <;> first | rfl | (simp only [conPtrs, DPtr.plus]; omega)

theorem fConLoop_spec {sz : Arr → ℕ} {nq : ℕ} {P : ConPtrs} {pm : ℕ → ℝ} {idx : ℕ → ℕ} (hq : 0 < nq)
    (hp : nq ≤ sz (.sh .ipiv)) (ds : List LC) :
    ∀ (k : ℕ) (prob : ℝ) (M : Mem), (∀ d ∈ ds, 0 < d.n ∧ P.Laid sz nq d.n) →
      (∀ i d, ds[i]? = some d → d.n ≤ sz (.flux (k + i)) ∧ ∀ l < d.n, M (.flux (k + i)) l = d.f l) →
      fConLoop sz nq P pm idx ds k prob M = .ok (probConSemiLoop nq pm idx ds k prob) := by
  induction ds with
  | nil => intros; rfl
  | cons d ds ih =>
    intro k prob M hd hf
    have h0 := hf 0 d rfl
    simp only [Nat.add_zero] at h0
    rw [fConLoop, probConSemiLoop]
    rcases fConTerm_spec (pm := pm) (idx := idx k) (M := M) hq (hd d (by simp)).1 (hd d (by simp)).2 hp h0.1 h0.2 with
      ⟨h1, h2⟩ | ⟨v, M', h1, h2, h3⟩
    · rw [h1, h2]; rfl
    · rw [h1, h2, Res.ok_bind]
      dsimp only
      refine ih (k + 1) (prob + v) M' (fun d' h => hd d' (by simp [h])) ?_
      intro i d' h
      have := hf (i + 1) d' (by simpa using h)
      have e : k + 1 + i = k + (i + 1) := by omega
      rw [e]
      exact ⟨this.1, fun l hl => (h3.flux _ _).trans (this.2 l hl)⟩

end Mica
