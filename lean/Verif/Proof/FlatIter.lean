import Verif.Proof.FlatBand
import Verif.Props.BlockInv

/-! `inverse_semiseparable_iter` on memory. -/

namespace Mica

open Matrix

theorem ldInt_congr {E : IntCells} {sz : Arr → ℕ} {p : DPtr} {i : ℕ} {M M' : Mem} (h : ∀ x, M' p.arr x = M p.arr x) :
    ldInt E sz p i M' = ldInt E sz p i M := by
  unfold ldInt ldd
  rw [h]

/-- The semiseparable solver gives the product with the inverse. -/
theorem bandWork_semi {t sigma : ℕ → ℝ} {a c syserr : ℝ} {n0 : ℕ} (A : ℕ → ℕ → ℝ) (hmono : ∀ i, i + 1 < n0 → t i ≤ t (i + 1))
    (hpos : ∀ i < n0, 0 < ssD t a c sigma syserr i) (hlead : block A 0 n0 0 n0 = ssC t a c sigma syserr n0)
    (P : Matrix (Fin n0) (Fin n0) ℝ) (hP : P = (block A 0 n0 0 n0)⁻¹) (nq : ℕ) :
    bandWork true (ssW t a c sigma syserr) (ssD t a c sigma syserr) (ssPhi t c) a A P nq =
      bandWork false (ssW t a c sigma syserr) (ssD t a c sigma syserr) (ssPhi t c) a A P nq := by
  have hne := fun i hi => (hpos i hi).ne'
  have hmul : ssC t a c sigma syserr n0 * (Matrix.of fun (i : Fin n0) (j : Fin nq) =>
      ssSolveMat (fun i j => A i (n0 + j)) (ssW t a c sigma syserr)
        (ssD t a c sigma syserr) (ssPhi t c) n0 a i j) = block A 0 n0 n0 nq := by
    ext i j
    have := congrFun (ssSolve_spec hmono hne (fun i => A i (n0 + j))) i
    simp only [Matrix.mul_apply, Matrix.of_apply, block, zero_add]
    exact this
  have hu : IsUnit (ssC t a c sigma syserr n0).det := by
    rw [ssC_det hmono hne]
    exact isUnit_iff_ne_zero.2 (Finset.prod_pos fun (i : Fin n0) _ => hpos i i.2).ne'
  simp only [bandWork, Bool.false_eq_true]
  rw [hP, hlead, ← hmul, ← Matrix.mul_assoc, Matrix.nonsing_inv_mul _ hu, Matrix.one_mul]
  rfl

theorem bandReg_of_posDef {first : Bool} {w d ph : ℕ → ℝ} {a1 : ℝ} {A : ℕ → ℕ → ℝ} (hA : ∀ i j, A i j = A j i)
    {st : ℕ × (ℕ → ℕ → ℝ) × ℝ} {nq : ℕ} (hpd : LeadPD A (st.1 + nq))
    (hP : block st.2.1 0 st.1 0 st.1 = (block A 0 st.1 0 st.1)⁻¹)
    (hw : bandWork first w d ph a1 A (block st.2.1 0 st.1 0 st.1) nq = block st.2.1 0 st.1 0 st.1 * block A 0 st.1 st.1 nq) :
    BandReg first w d ph a1 A st nq := by
  unfold BandReg
  rw [hw, hP]
  have e : (-1 : ℝ) • ((block A 0 st.1 st.1 nq)ᵀ * ((block A 0 st.1 0 st.1)⁻¹ * block A 0 st.1 st.1 nq)) +
      (1 : ℝ) • block A st.1 nq st.1 nq = block A st.1 nq st.1 nq - (block A 0 st.1 st.1 nq)ᵀ *
        ((block A 0 st.1 0 st.1)⁻¹ * block A 0 st.1 st.1 nq) := by
    rw [neg_smul, one_smul, one_smul]; abel
  rw [e]
  have h := schur_posDef A hA st.1 nq hpd
  rw [upperSym_of_symm (posDef_symm h)]
  exact h.det_pos.ne'

theorem fBands_spec {E : IntCells} {sz : Arr → ℕ} {W D phi narr : DPtr} {a1 : ℝ} {nt : ℕ} {w d ph : ℕ → ℝ}
    {A : ℕ → ℕ → ℝ} (hA : ∀ i j, A i j = A j i) (hpd : LeadPD A nt)
    (aW : W.arr = .sh .workspace) (aD : D.arr = .sh .workspace) (aP : phi.arr = .sh .workspace) (aN : narr.arr = .sh .workspace)
    (hinv : 2 * (nt * nt) ≤ sz (.sh .inv)) (hpc : nt * nt ≤ sz (.sh .pcmat)) (hp : nt ≤ sz (.sh .ipiv)) (ns : List ℕ) :
    ∀ (k : ℕ) (st : ℕ × (ℕ → ℕ → ℝ) × ℝ) (M : Mem), 1 ≤ k → 0 < st.1 → (∀ nq ∈ ns, 0 < nq) → st.1 + ns.sum = nt →
      (k = 1 → (inside sz W st.1 ∧ inside sz D st.1 ∧ inside sz phi st.1) ∧
        ((∀ i < st.1, M W.arr (W.off + i) = w i) ∧ (∀ i < st.1, M D.arr (D.off + i) = d i) ∧
          ∀ i < st.1, M phi.arr (phi.off + i) = ph i) ∧
        ∀ nq, bandWork true w d ph a1 A (block st.2.1 0 st.1 0 st.1) nq =
          bandWork false w d ph a1 A (block st.2.1 0 st.1 0 st.1) nq) →
      (∀ i nq, ns[i]? = some nq → ldInt E sz narr (k + i) M = .ok nq) →
      (∀ i < nt, ∀ j < nt, M (.sh .pcmat) (i * nt + j) = A i j) →
      matAt M ⟨.sh .inv, 0⟩ st.1 st.1 = block st.2.1 0 st.1 0 st.1 → BandInv A st →
      ∃ M', fBands E sz W D phi a1 ⟨.sh .pcmat, 0⟩ ⟨.sh .inv, 0⟩ narr nt ns.length k st.1 st.2.2 M =
          .ok (some ((ns.foldl (bandStep A) st).2.2, M')) ∧
        Only (fun C _ => C = .sh .inv ∨ C = .sh .pcmat) M M' ∧
        (ns = [] → M' = M) ∧
        (ns ≠ [] → matAt M' ⟨.sh .pcmat, 0⟩ nt nt = block (ns.foldl (bandStep A) st).2.1 0 nt 0 nt) := by
  induction ns with
  | nil =>
    intro k st M _ _ _ _ _ _ _ _ _
    exact ⟨M, rfl, Only.refl _ _, fun _ => rfl, fun h => (h rfl).elim⟩
  | cons nq ns ih =>
    intro k st M hk hni hns hsum hfirst hnarr vA vI hbi
    have hnq : 0 < nq := hns nq (by simp)
    rw [List.sum_cons] at hsum
    have hle : st.1 + nq ≤ nt := by omega
    rw [List.length_cons, fBands]
    have h0 := hnarr 0 nq rfl
    rw [Nat.add_zero] at h0
    rw [h0, Res.ok_bind]
    -- the first and the later passes compute the same
    have hw : bandWork (k == 1) w d ph a1 A (block st.2.1 0 st.1 0 st.1) nq =
        bandWork false w d ph a1 A (block st.2.1 0 st.1 0 st.1) nq := by
      by_cases h1 : k = 1
      · subst h1; exact (hfirst rfl).2.2 nq
      · rw [show (k == 1) = false by simpa using h1]
    have hstep : bandAny (k == 1) w d ph a1 A st nq = bandStep A st nq := by
      rw [bandAny_eq, hw, ← bandAny_eq]; rfl
    have hreg : BandReg (k == 1) w d ph a1 A st nq := bandReg_of_posDef hA (hpd.mono hle) hbi.1 (by rw [hw]; rfl)
    obtain ⟨M1, l, e1, g1, o1, v1⟩ := fBand_spec (sz := sz) (W := W) (D := D) (phi := phi) (a1 := a1) (nt := nt) (nq := nq)
      (first := k == 1) (last := ns.length == 0) (M := M) (w := w) (d := d) (ph := ph) (A := A) (st := st) hni hnq hle
      (by
        intro h
        have : ns = [] := by simpa using h
        subst this
        simpa using hsum) aW aD aP (fun h => (hfirst (by simpa using h)).1) hinv hpc (by omega)
      (fun h => (hfirst (by simpa using h)).2.1) vA vI hreg
    rw [e1, thenO_some]
    dsimp only
    rw [hstep] at g1 v1
    have ows : ∀ x, M1 (.sh .workspace) x = M (.sh .workspace) x := fun x => o1 _ _ (by simp)
    have hd1 : (block A 0 st.1 0 st.1).det ≠ 0 := (hpd.mono (by omega : st.1 ≤ nt)).det_pos.ne'
    have hd2 : (block A 0 (st.1 + nq) 0 (st.1 + nq)).det ≠ 0 := (hpd.mono hle).det_pos.ne'
    have hbi' := bandStep_inv A hA st nq hd1 hd2 hbi
    have hst1 : (bandStep A st nq).1 = st.1 + nq := rfl
    rw [List.foldl_cons, ← g1]
    rcases ns with _ | ⟨nq', ns'⟩
    · -- last pass
      refine ⟨M1, rfl, o1.mono fun _ _ h => h.imp id And.right, fun h => by simp at h, fun _ => ?_⟩
      have : st.1 + nq = nt := by simpa using hsum
      rw [hst1, this] at v1
      exact v1
    · obtain ⟨M2, e2, o2, -, v2⟩ := ih (k + 1) (bandStep A st nq) M1 (by omega) (by rw [hst1]; omega)
        (fun q hq => hns q (by simp [hq])) (by rw [hst1]; omega) (fun h => by omega) (by
          intro i q hi
          have := hnarr (i + 1) q (by simpa using hi)
          rw [ldInt_congr (M := M) (by rw [aN]; exact ows), show k + 1 + i = k + (i + 1) by omega]
          exact this) (by
          intro i hi j hj
          rw [o1 _ _ (by simp), vA i hi j hj]) (by simpa using v1) hbi'
      rw [hst1] at e2
      refine ⟨M2, e2, (o1.mono fun _ _ h => h.imp id And.right).trans o2, fun h => by simp at h, fun _ => v2 (by simp)⟩

/-- `inverse_semiseparable_iter` leaves the matrix of `semiIter`. -/
theorem fSemiIter_spec {E : IntCells} {sz : Arr → ℕ} {t sigma : ℕ → ℝ} {a1 c1 syserr : ℝ} {rd : ℕ → Mem → Res ℝ}
    {W D phi narr : DPtr} {nt n0 : ℕ} {ns : List ℕ} {M : Mem} {A : ℕ → ℕ → ℝ} (hA : ∀ i j, A i j = A j i) (hpd : LeadPD A nt)
    (hn0 : 0 < n0) (hns : ∀ nq ∈ ns, 0 < nq) (hsum : n0 + ns.sum = nt)
    (aW : W.arr = .sh .workspace) (aD : D.arr = .sh .workspace) (aP : phi.arr = .sh .workspace) (aN : narr.arr = .sh .workspace)
    (hW : inside sz W n0) (hD : inside sz D n0) (hph : inside sz phi n0)
    (d1 : W.off + n0 ≤ D.off) (d2 : D.off + n0 ≤ phi.off) (d3 : phi.off + n0 ≤ narr.off)
    (hrd : ∀ i < n0, ∀ M', Only (fun A x => reg W n0 A x ∨ reg D n0 A x ∨ reg phi n0 A x) M M' → rd i M' = .ok (sigma i))
    (hinv : 2 * (nt * nt) ≤ sz (.sh .inv)) (hpc : nt * nt ≤ sz (.sh .pcmat)) (hp : nt ≤ sz (.sh .ipiv))
    (hmono : ∀ i, i + 1 < n0 → t i ≤ t (i + 1)) (hpos : ∀ i < n0, 0 < ssD t a1 c1 sigma syserr i)
    (hlead : block A 0 n0 0 n0 = ssC t a1 c1 sigma syserr n0)
    (hnarr : ∀ i nq, (n0 :: ns)[i]? = some nq → ldInt E sz narr i M = .ok nq)
    (vA : ∀ i < nt, ∀ j < nt, M (.sh .pcmat) (i * nt + j) = A i j) :
    ∃ M', fSemiIter E sz t a1 c1 rd syserr W D phi ⟨.sh .pcmat, 0⟩ nt narr ns.length ⟨.sh .inv, 0⟩ M =
        .ok (some ((semiIter t a1 c1 sigma syserr A n0 ns).2.2, M')) ∧
      Only (fun B x => reg W n0 B x ∨ reg D n0 B x ∨ reg phi n0 B x ∨ B = .sh .inv ∨ B = .sh .pcmat) M M' ∧
      matAt M' ⟨.sh .pcmat, 0⟩ nt nt = block (semiIter t a1 c1 sigma syserr A n0 ns).2.1 0 nt 0 nt := by
  unfold fSemiIter
  rw [hnarr 0 n0 rfl, Res.ok_bind]
  have hle : n0 ≤ nt := by omega
  have sq : n0 * n0 ≤ nt * nt := Nat.mul_le_mul hle hle
  obtain ⟨M1, e1, o1, vW, vD, vP, v1⟩ := fInverseSemi_spec (sz := sz) (t := t) (n := n0) (a1 := a1) (c1 := c1) (rd := rd)
    (sigma := sigma) (syserr := syserr) (W := W) (D := D) (phi := phi) (A := ⟨.sh .inv, 0⟩) (M := M) hn0 hW hD hph
    (by show _ + _ ≤ sz (.sh .inv); dsimp only; omega) (.inr (by omega)) (.inr (by omega)) (.inr (by omega))
    (.inl (by rw [aW]; simp)) (.inl (by rw [aD]; simp)) (.inl (by rw [aP]; simp)) hrd hpos
  rw [e1, thenO_some]
  dsimp only
  let st : ℕ × (ℕ → ℕ → ℝ) × ℝ :=
    (n0, arrayOf (ssInverse t a1 c1 (ssW t a1 c1 sigma syserr) (ssD t a1 c1 sigma syserr) n0), ssLndet (ssD t a1 c1 sigma syserr) n0)
  have hAi : block st.2.1 0 st.1 0 st.1 = (block A 0 st.1 0 st.1)⁻¹ := by
    show block (arrayOf _) 0 n0 0 n0 = _
    rw [block_arrayOf, ssInverse_eq hmono hpos, ← hlead]
  have hbi : BandInv A st := by
    refine ⟨hAi, fun _ => ?_⟩
    show ssLndet (ssD t a1 c1 sigma syserr) n0 = Real.log (block A 0 n0 0 n0).det
    rw [ssLndet_eq _ hpos, hlead, ssC_det hmono fun i hi => (hpos i hi).ne']
  have opc : ∀ x, M1 (.sh .pcmat) x = M (.sh .pcmat) x := by
    intro x
    apply o1
    rintro (⟨h, -⟩ | ⟨h, -⟩ | ⟨h, -⟩ | ⟨h, -⟩)
    · rw [aW] at h; simp at h
    · rw [aD] at h; simp at h
    · rw [aP] at h; simp at h
    · simp at h
  have onarr : ∀ i, ldInt E sz narr i M1 = ldInt E sz narr i M := by
    intro i
    unfold ldInt ldd
    congr 1
    split
    · congr 1
      apply o1
      rintro (⟨-, h1, h2⟩ | ⟨-, h1, h2⟩ | ⟨-, h1, h2⟩ | ⟨h, -⟩)
      · omega
      · omega
      · omega
      · rw [aN] at h; simp at h
    · rfl
  obtain ⟨M2, e2, o2, v0, v2⟩ := fBands_spec (E := E) (sz := sz) (W := W) (D := D) (phi := phi) (narr := narr) (a1 := a1) (nt := nt)
    (w := ssW t a1 c1 sigma syserr) (d := ssD t a1 c1 sigma syserr) (ph := ssPhi t c1) hA hpd aW aD aP aN hinv hpc hp ns 1 st M1
    le_rfl hn0 hns hsum
    (fun _ => ⟨⟨hW, hD, hph⟩, ⟨vW, vD, vP⟩, fun nq => bandWork_semi A hmono hpos hlead _ hAi nq⟩)
    (by
      intro i nq hi
      rw [onarr, Nat.add_comm]
      exact hnarr (i + 1) nq (by simpa using hi))
    (by intro i hi j hj; rw [opc, vA i hi j hj])
    (by show matAt M1 ⟨.sh .inv, 0⟩ n0 n0 = block (arrayOf _) 0 n0 0 n0; rw [block_arrayOf, v1]) hbi
  have e2' : fBands E sz W D phi a1 ⟨.sh .pcmat, 0⟩ ⟨.sh .inv, 0⟩ narr nt ns.length 1 n0 (ssLndet (ssD t a1 c1 sigma syserr) n0) M1 =
    .ok (some ((ns.foldl (bandStep A) st).2.2, M2)) := e2
  rw [e2']
  have o12 : Only (fun B x => reg W n0 B x ∨ reg D n0 B x ∨ reg phi n0 B x ∨ B = .sh .inv ∨ B = .sh .pcmat) M M2 := by
    refine Only.trans (M' := M1) (o1.mono ?_) (o2.mono fun _ _ h => .inr (.inr (.inr h)))
    rintro B x (h | h | h | h)
    · exact .inl h
    · exact .inr (.inl h)
    · exact .inr (.inr (.inl h))
    · exact .inr (.inr (.inr (.inl h.1)))
  rcases ns with _ | ⟨nq, ns⟩
  · refine ⟨M2, rfl, o12, ?_⟩
    rw [v0 rfl]
    ext i j
    show M1 (.sh .pcmat) (0 + _) = A (0 + i) (0 + j)
    rw [opc, Nat.zero_add, Nat.zero_add, Nat.zero_add, vA i i.2 j j.2]
  · have hsi : semiIter t a1 c1 sigma syserr A n0 (nq :: ns) = (nq :: ns).foldl (bandStep A) st := by
      unfold semiIter
      dsimp only
      rw [List.foldl_cons]
      congr 1
      exact bandStepSemi_eq A hmono hpos hlead _ hAi _ nq
    rw [hsi]
    exact ⟨M2, rfl, o12, v2 (by simp)⟩

end Mica
