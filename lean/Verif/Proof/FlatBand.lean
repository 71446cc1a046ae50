import Verif.Proof.FlatTri

/-! Inversion by blocks on memory. -/

namespace Mica

open Matrix

@[simp] theorem thenO_some {α β : Type} (a : α) (f : α → Res (Option β)) : thenO (.ok (some a)) f = f a := rfl

@[simp] theorem thenO_none {α β : Type} (f : α → Res (Option β)) : thenO (.ok none) f = .ok none := rfl

theorem fPart_spec {sz : Arr → ℕ} {Pinv S Q PN work : DPtr} {n1 n2 : ℕ} {M : Mem} (h1 : 0 < n1) (h2 : 0 < n2) {B : Arr}
    (b1 : Pinv.arr = B) (b2 : PN.arr = B) (b3 : Q.arr = B) (b4 : S.arr = B) (b5 : work.arr = B)
    (l1 : Pinv.off + n1 * n1 ≤ PN.off) (l2 : PN.off + n1 * n1 ≤ Q.off) (l3 : Q.off + n1 * n2 ≤ S.off)
    (l4 : S.off + n2 * n2 ≤ work.off) (l5 : work.off + n1 * n2 ≤ sz B) (hp : n2 ≤ sz (.sh .ipiv))
    (hdet : (upperSym ((-1 : ℝ) • ((matAt M Q n1 n2)ᵀ * matAt M work n1 n2) + (1 : ℝ) • matAt M S n2 n2)).det ≠ 0) :
    let r := partFastCore (matAt M Pinv n1 n1) (matAt M S n2 n2) (matAt M Q n1 n2) (matAt M work n1 n2)
    ∃ M', fPart sz Pinv S Q n1 n2 PN work M = .ok (some (r.2.2.2, M')) ∧ Only (fun C _ => C = B) M M' ∧
      matAt M' PN n1 n1 = r.1 ∧ matAt M' Q n1 n2 = r.2.1 ∧ matAt M' S n2 n2 = r.2.2.1 := by
  intro r
  have ins : ∀ {p : DPtr} {l : ℕ}, p.arr = B → p.off + l ≤ sz B → inside sz p l := by
    intro p l g1 g2
    unfold inside; rw [g1]; exact g2
  have onB : ∀ {p : DPtr} {l : ℕ} {M M' : Mem}, Only (reg p l) M M' → p.arr = B → Only (fun C _ => C = B) M M' :=
    fun h g => h.mono fun _ _ ⟨e, _⟩ => e.trans g
  have cm : n2 * n1 = n1 * n2 := Nat.mul_comm _ _
  unfold fPart
  obtain ⟨M1, e1, o1, v1⟩ := fMNTA_spec (sz := sz) (a := Q) (b := work) (c := S) (m := n2) (n := n2) (k := n1) (M := M)
    (alpha := -1) (beta := 1) h2 h2 h1 (ins b3 (by omega)) (ins b5 (by omega)) (ins b4 (by omega)) (.inr (by omega)) (.inr (by omega))
  rw [e1, Res.ok_bind]
  obtain ⟨M2, e2, o2, v2⟩ := fInverseSymat_spec (sz := sz) (p := S) (n := n2) (M := M1) (ins b4 (by omega)) hp (by rw [v1]; exact hdet)
  rw [e2, thenO_some]
  dsimp only
  rw [v1] at v2 ⊢
  have w2 : matAt M2 work n1 n2 = matAt M work n1 n2 := (o2.mat (.inr (by omega))).trans (o1.mat (.inr (by omega)))
  obtain ⟨M3, e3, o3, v3⟩ := fMN_spec (sz := sz) (a := work) (b := S) (c := Q) (m := n1) (n := n2) (k := n2) (M := M2)
    (alpha := -1) (beta := 0) h1 h2 h2 (ins b5 (by omega)) (ins b4 (by omega)) (ins b3 (by omega)) (.inr (by omega)) (.inr (by omega))
  rw [e3, Res.ok_bind]
  rw [w2, v2, zero_smul, add_zero] at v3
  obtain ⟨M4, e4, o4, v4⟩ := copyD_spec (sz := sz) (dst := PN) (src := Pinv) (n := n1 * n1) (M := M3)
    (ins b2 (by omega)) (ins b1 (by omega)) (.inr (by omega))
  rw [e4, Res.ok_bind]
  have p4 : matAt M4 PN n1 n1 = matAt M Pinv n1 n1 := by
    have q : matAt M3 Pinv n1 n1 = matAt M Pinv n1 n1 :=
      (o3.mat (.inr (by omega))).trans ((o2.mat (.inr (by omega))).trans (o1.mat (.inr (by omega))))
    rw [← q]
    ext i j
    exact congrFun v4 ⟨(i : ℕ) * n1 + j, idx_lt i.2 j.2⟩
  have w4 : matAt M4 work n1 n2 = matAt M work n1 n2 := (o4.mat (.inr (by omega))).trans ((o3.mat (.inr (by omega))).trans w2)
  have q4 := (o4.mat (q := Q) (r := n1) (c := n2) (.inr (by omega))).trans v3
  obtain ⟨M5, e5, o5, v5⟩ := fMNTB_spec (sz := sz) (a := Q) (b := work) (c := PN) (m := n1) (n := n1) (k := n2) (M := M4)
    (alpha := -1) (beta := 1) h1 h1 h2 (ins b3 (by omega)) (ins b5 (by omega)) (ins b2 (by omega)) (.inr (by omega)) (.inr (by omega))
  rw [e5, Res.ok_bind]
  rw [q4, w4, p4] at v5
  refine ⟨M5, rfl, ((((onB o1 b4).trans (onB o2 b4)).trans (onB o3 b3)).trans (onB o4 b2)).trans (onB o5 b2), v5, ?_, ?_⟩
  · exact (o5.mat (.inr (by omega))).trans q4
  · exact (o5.mat (.inr (by omega))).trans ((o4.mat (.inr (by omega))).trans ((o3.mat (.inr (by omega))).trans v2))

/-- The product `P^-1 Q` as computed in the first and in the later passes. -/
noncomputable def bandWork (first : Bool) (W D phi : ℕ → ℝ) (a1 : ℝ) (A : ℕ → ℕ → ℝ) (P : Matrix (Fin ni) (Fin ni) ℝ) (nq : ℕ) :
    Matrix (Fin ni) (Fin nq) ℝ :=
  if first then fun i j => ssSolveMat (fun i j => A i (ni + j)) W D phi ni a1 i j else P * block A 0 ni ni nq

/-- One pass, first or later. -/
noncomputable def bandAny (first : Bool) (W D phi : ℕ → ℝ) (a1 : ℝ) (A : ℕ → ℕ → ℝ) (st : ℕ × (ℕ → ℕ → ℝ) × ℝ) (nq : ℕ) :
    ℕ × (ℕ → ℕ → ℝ) × ℝ :=
  if first then bandStepSemi W D phi a1 A st nq else bandStep A st nq

/-- The matrix inverted in a pass is not singular. -/
def BandReg (first : Bool) (W D phi : ℕ → ℝ) (a1 : ℝ) (A : ℕ → ℕ → ℝ) (st : ℕ × (ℕ → ℕ → ℝ) × ℝ) (nq : ℕ) : Prop :=
  (upperSym ((-1 : ℝ) • ((block A 0 st.1 st.1 nq)ᵀ * bandWork first W D phi a1 A (block st.2.1 0 st.1 0 st.1) nq) +
    (1 : ℝ) • block A st.1 nq st.1 nq)).det ≠ 0

theorem bandAny_eq (first : Bool) (W D phi : ℕ → ℝ) (a1 : ℝ) (A : ℕ → ℕ → ℝ) (st : ℕ × (ℕ → ℕ → ℝ) × ℝ) (nq : ℕ) :
    bandAny first W D phi a1 A st nq =
      let r := partFastCore (block st.2.1 0 st.1 0 st.1) (block A st.1 nq st.1 nq) (block A 0 st.1 st.1 nq)
        (bandWork first W D phi a1 A (block st.2.1 0 st.1 0 st.1) nq)
      (st.1 + nq, assemble r.1 r.2.1 r.2.2.1, st.2.2 + r.2.2.2) := by
  cases first <;> rfl

theorem fBand_spec {sz : Arr → ℕ} {W D phi : DPtr} {a1 : ℝ} {nt nq : ℕ} {first last : Bool} {M : Mem} {w d ph : ℕ → ℝ}
    {A : ℕ → ℕ → ℝ} {st : ℕ × (ℕ → ℕ → ℝ) × ℝ} (hni : 0 < st.1) (hnq : 0 < nq) (hnt : st.1 + nq ≤ nt) (hl : last = true → st.1 + nq = nt)
    (aW : W.arr = .sh .workspace) (aD : D.arr = .sh .workspace) (aP : phi.arr = .sh .workspace)
    (iW : first = true → inside sz W st.1 ∧ inside sz D st.1 ∧ inside sz phi st.1)
    (hinv : 2 * (nt * nt) ≤ sz (.sh .inv)) (hpc : nt * nt ≤ sz (.sh .pcmat)) (hp : nq ≤ sz (.sh .ipiv))
    (vW : first = true → (∀ i < st.1, M W.arr (W.off + i) = w i) ∧ (∀ i < st.1, M D.arr (D.off + i) = d i) ∧
      ∀ i < st.1, M phi.arr (phi.off + i) = ph i)
    (vA : ∀ i < nt, ∀ j < nt, M (.sh .pcmat) (i * nt + j) = A i j)
    (vI : matAt M ⟨.sh .inv, 0⟩ st.1 st.1 = block st.2.1 0 st.1 0 st.1)
    (hreg : BandReg first w d ph a1 A st nq) :
    let st' := bandAny first w d ph a1 A st nq
    ∃ M' l, fBand sz W D phi a1 ⟨.sh .pcmat, 0⟩ ⟨.sh .inv, 0⟩ nt st.1 nq first last M = .ok (some (l, M')) ∧
      st'.2.2 = st.2.2 + l ∧ Only (fun C _ => C = .sh .inv ∨ (last = true ∧ C = .sh .pcmat)) M M' ∧
      matAt M' (if last then ⟨.sh .pcmat, 0⟩ else ⟨.sh .inv, 0⟩) st'.1 st'.1 = block st'.2.1 0 st'.1 0 st'.1 := by
  intro st'
  have hst' : st' = _ := bandAny_eq first w d ph a1 A st nq
  obtain ⟨ni, Ai, ld⟩ := st
  dsimp only at *
  have sq : ni * ni + ni * nq + nq * nq + ni * nq ≤ nt * nt := by
    have := Nat.mul_le_mul hnt hnt
    have e : (ni + nq) * (ni + nq) = ni * ni + ni * nq + nq * nq + ni * nq := by ring
    omega
  have sq2 : (ni + nq) * (ni + nq) ≤ nt * nt := Nat.mul_le_mul hnt hnt
  have sq3 : ni * ni ≤ nt * nt := Nat.mul_le_mul (by omega) (by omega)
  unfold fBand
  dsimp only [DPtr.plus]
  rw [Nat.zero_add]
  have onB : ∀ {o l : ℕ} {M M' : Mem}, Only (reg ⟨.sh .inv, o⟩ l) M M' → Only (fun C _ => C = .sh .inv) M M' :=
    fun h => h.mono fun _ _ ⟨e, _⟩ => e
  -- Q
  obtain ⟨M1, e1, o1, v1⟩ := fTake_spec (sz := sz) (src := ⟨.sh .pcmat, 0⟩) (dst := ⟨.sh .inv, nt * nt + ni * ni⟩)
    (ad := fun i j => i * nt + (ni + j)) (r := ni) (c := nq) (ls := nt * nt) (M := M)
    (by show _ + _ ≤ sz (.sh .inv); dsimp only; omega) (by show _ + _ ≤ sz (.sh .pcmat); dsimp only; omega)
    (fun i hi j hj => idx_lt (by omega) (by omega)) (.inl (by simp))
  rw [e1, Res.ok_bind]
  -- S
  obtain ⟨M2, e2, o2, v2⟩ := fTake_spec (sz := sz) (src := ⟨.sh .pcmat, 0⟩) (dst := ⟨.sh .inv, nt * nt + ni * ni + ni * nq⟩)
    (ad := fun i j => (ni + i) * nt + (ni + j)) (r := nq) (c := nq) (ls := nt * nt) (M := M1)
    (by show _ + _ ≤ sz (.sh .inv); dsimp only; omega) (by show _ + _ ≤ sz (.sh .pcmat); dsimp only; omega)
    (fun i hi j hj => idx_lt (by omega) (by omega)) (.inl (by simp))
  rw [e2, Res.ok_bind]
  have o12 : Only (fun C _ => C = .sh .inv) M M2 := (onB o1).trans (onB o2)
  have q1 : matAt M1 ⟨.sh .inv, nt * nt + ni * ni⟩ ni nq = block A 0 ni ni nq := by
    rw [v1]; ext i j
    show M (.sh .pcmat) (0 + _) = A (0 + i) (ni + j)
    rw [Nat.zero_add, Nat.zero_add, vA _ (by omega) _ (by omega)]
  have q2 : matAt M2 ⟨.sh .inv, nt * nt + ni * ni⟩ ni nq = block A 0 ni ni nq :=
    (o2.mat (.inr (.inl (by dsimp only; omega)))).trans q1
  have s2 : matAt M2 ⟨.sh .inv, nt * nt + ni * ni + ni * nq⟩ nq nq = block A ni nq ni nq := by
    rw [v2]; ext i j
    show M1 (.sh .pcmat) (0 + _) = A (ni + i) (ni + j)
    rw [(onB o1) _ _ (by simp), Nat.zero_add, vA _ (by omega) _ (by omega)]
  have p2 : matAt M2 ⟨.sh .inv, 0⟩ ni ni = block Ai 0 ni 0 ni :=
    ((o2.mat (.inr (.inl (by dsimp only; omega)))).trans (o1.mat (.inr (.inl (by dsimp only; omega))))).trans vI
  -- P^-1 Q
  obtain ⟨M3, e3, o3, v3⟩ : ∃ M3, (if first = true then fSolveMat sz ⟨.sh .inv, nt * nt + ni * ni⟩ W D phi ni nq a1
      ⟨.sh .inv, nt * nt + ni * ni + ni * nq + nq * nq⟩ else fMN sz ⟨.sh .inv, 0⟩ ⟨.sh .inv, nt * nt + ni * ni⟩
      ⟨.sh .inv, nt * nt + ni * ni + ni * nq + nq * nq⟩ ni nq ni) M2 = .ok M3 ∧
      Only (reg ⟨.sh .inv, nt * nt + ni * ni + ni * nq + nq * nq⟩ (ni * nq)) M2 M3 ∧
      matAt M3 ⟨.sh .inv, nt * nt + ni * ni + ni * nq + nq * nq⟩ ni nq = bandWork first w d ph a1 A (block Ai 0 ni 0 ni) nq := by
    cases first with
    | true =>
      obtain ⟨iW, iD, iP⟩ := iW rfl
      obtain ⟨vW, vD, vP⟩ := vW rfl
      have k2 : ∀ {p : DPtr} {v : ℕ → ℝ}, p.arr = .sh .workspace → (∀ i < ni, M p.arr (p.off + i) = v i) →
          ∀ i < ni, M2 p.arr (p.off + i) = v i := by
        intro p v hp hv i hi
        rw [o12 _ _ (by rw [hp]; simp), hv i hi]
      obtain ⟨M3, e3, o3, v3⟩ := fSolveMat_spec (sz := sz) (Y := ⟨.sh .inv, nt * nt + ni * ni⟩) (W := W) (D := D) (phi := phi)
        (Z := ⟨.sh .inv, nt * nt + ni * ni + ni * nq + nq * nq⟩) (n := ni) (m := nq) (a1 := a1) (M := M2) (w := w) (d := d) (ph := ph) hni
        (by show _ + _ ≤ sz (.sh .inv); dsimp only; omega) iW iD iP (by show _ + _ ≤ sz (.sh .inv); dsimp only; omega)
        (.inr (.inl (by dsimp only; omega))) (.inl (by rw [aW]; simp)) (.inl (by rw [aD]; simp)) (.inl (by rw [aP]; simp))
        (k2 aW vW) (k2 aD vD) (k2 aP vP)
      refine ⟨M3, e3, o3, ?_⟩
      ext i j
      refine (v3 i i.2 j j.2).trans ?_
      simp only [bandWork, ssSolveMat]
      refine ssSolve_congr (fun l hl => ?_) (fun _ _ => rfl) (fun _ _ => rfl) (fun _ _ => rfl) hni i.2
      have := congrFun (congrFun q2 ⟨l, hl⟩) j
      refine this.trans ?_
      simp [block]
    | false =>
      obtain ⟨M3, e3, o3, v3⟩ := fMN_spec (sz := sz) (a := ⟨.sh .inv, 0⟩) (b := ⟨.sh .inv, nt * nt + ni * ni⟩)
        (c := ⟨.sh .inv, nt * nt + ni * ni + ni * nq + nq * nq⟩) (m := ni) (n := nq) (k := ni) (M := M2)
        (alpha := 1) (beta := 0) hni hnq hni
        (by show _ + _ ≤ sz (.sh .inv); dsimp only; omega) (by show _ + _ ≤ sz (.sh .inv); dsimp only; omega)
        (by show _ + _ ≤ sz (.sh .inv); dsimp only; omega) (.inr (.inr (by dsimp only; omega))) (.inr (.inr (by dsimp only; omega)))
      refine ⟨M3, e3, o3, ?_⟩
      rw [v3, q2, p2, one_smul, zero_smul, add_zero]
      simp [bandWork]
  rw [e3, Res.ok_bind]
  have q3 := (o3.mat (q := ⟨.sh .inv, nt * nt + ni * ni⟩) (r := ni) (c := nq) (.inr (.inl (by dsimp only; omega)))).trans q2
  have s3 := (o3.mat (q := ⟨.sh .inv, nt * nt + ni * ni + ni * nq⟩) (r := nq) (c := nq) (.inr (.inl (by dsimp only; omega)))).trans s2
  have p3 := (o3.mat (q := ⟨.sh .inv, 0⟩) (r := ni) (c := ni) (.inr (.inl (by dsimp only; omega)))).trans p2
  -- the blocks
  obtain ⟨M4, e4, o4, v4, v5, v6⟩ := fPart_spec (sz := sz) (Pinv := ⟨.sh .inv, 0⟩) (S := ⟨.sh .inv, nt * nt + ni * ni + ni * nq⟩)
    (Q := ⟨.sh .inv, nt * nt + ni * ni⟩) (PN := ⟨.sh .inv, nt * nt⟩) (work := ⟨.sh .inv, nt * nt + ni * ni + ni * nq + nq * nq⟩)
    (n1 := ni) (n2 := nq) (M := M3) hni hnq (B := .sh .inv) rfl rfl rfl rfl rfl (by dsimp only; omega) (by dsimp only; omega)
    (by dsimp only; omega) (by dsimp only; omega) (by dsimp only; omega) hp (by rw [q3, s3, v3]; exact hreg)
  rw [e4, thenO_some]
  dsimp only
  rw [q3, s3, p3, v3] at v4 v5 v6 ⊢
  have w4 : Only (fun C _ => C = .sh .inv) M M4 := (o12.trans (onB o3)).trans o4
  have st2 : st'.1 = ni + nq := by rw [hst']
  have st3 : st'.2.1 = assemble (matAt M4 ⟨.sh .inv, nt * nt⟩ ni ni) (matAt M4 ⟨.sh .inv, nt * nt + ni * ni⟩ ni nq)
      (matAt M4 ⟨.sh .inv, nt * nt + ni * ni + ni * nq⟩ nq nq) := by rw [hst', v4, v5, v6]
  rw [st2, st3]
  cases last with
  | true =>
    simp only [if_true]
    obtain ⟨M5, e5, o5, v7⟩ := fPut_spec (sz := sz) (Ai := ⟨.sh .pcmat, 0⟩) (ANi := ⟨.sh .inv, nt * nt⟩)
      (QNi := ⟨.sh .inv, nt * nt + ni * ni⟩) (SNi := ⟨.sh .inv, nt * nt + ni * ni + ni * nq⟩) (ni := ni) (nq := nq) (M := M4)
      (by show _ + _ ≤ sz (.sh .pcmat); dsimp only; omega) (by show _ + _ ≤ sz (.sh .inv); dsimp only; omega)
      (by show _ + _ ≤ sz (.sh .inv); dsimp only; omega) (by show _ + _ ≤ sz (.sh .inv); dsimp only; omega)
      (.inl (by simp)) (.inl (by simp)) (.inl (by simp))
    rw [e5, Res.ok_bind]
    refine ⟨M5, _, rfl, by rw [hst'], ?_, v7⟩
    exact Only.trans (w4.mono fun _ _ h => .inl h) (o5.mono fun _ _ h => .inr ⟨trivial, h.1⟩)
  | false =>
    simp only [Bool.false_eq_true, if_false]
    obtain ⟨M5, e5, o5, v7⟩ := fPut_spec (sz := sz) (Ai := ⟨.sh .inv, 0⟩) (ANi := ⟨.sh .inv, nt * nt⟩)
      (QNi := ⟨.sh .inv, nt * nt + ni * ni⟩) (SNi := ⟨.sh .inv, nt * nt + ni * ni + ni * nq⟩) (ni := ni) (nq := nq) (M := M4)
      (by show _ + _ ≤ sz (.sh .inv); dsimp only; omega) (by show _ + _ ≤ sz (.sh .inv); dsimp only; omega)
      (by show _ + _ ≤ sz (.sh .inv); dsimp only; omega) (by show _ + _ ≤ sz (.sh .inv); dsimp only; omega)
      (.inr (.inr (by dsimp only; omega))) (.inr (.inr (by dsimp only; omega))) (.inr (.inr (by dsimp only; omega)))
    rw [e5, Res.ok_bind]
    refine ⟨M5, _, rfl, by rw [hst'], ?_, v7⟩
    exact (w4.trans (onB o5)).mono fun _ _ h => .inl h

end Mica
