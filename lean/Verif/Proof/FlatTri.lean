import Verif.Proof.FlatLoop
import Mathlib.LinearAlgebra.Matrix.Block

/-! The inverse of the first block on memory. -/

namespace Mica

open Matrix

theorem mapLower_spec {sz : Arr → ℕ} {p : DPtr} {n : ℕ} {f : Matrix (Fin n) (Fin n) ℝ → Matrix (Fin n) (Fin n) ℝ} {M : Mem}
    (hi : inside sz p (n * n)) :
    ∃ M', mapLower sz p n f M = .ok M' ∧ Only (reg p (n * n)) M M' ∧
      ∀ i j : Fin n, j ≤ i → matAt M' p n n i j = f (lowerPart (matAt M p n n)) i j := by
  unfold mapLower
  rw [if_pos hi]
  refine ⟨_, rfl, ?_, ?_⟩
  · intro A x h
    beta_reduce
    rw [if_neg]
    rintro ⟨h1, h2, h3, -⟩
    exact h ⟨h1, h2, h3⟩
  · intro i j hij
    have l := idx_lt i.2 j.2
    show (if _ then _ else _) = _
    have e : p.off + ((i : ℕ) * n + j) - p.off = i * n + j := by omega
    rw [e, idx_div j.2, idx_mod j.2, if_pos ⟨rfl, by omega, by omega, hij⟩]
    simp [arrayOf]

theorem fillUpper_spec {sz : Arr → ℕ} {p : DPtr} {n : ℕ} {M : Mem} (hi : inside sz p (n * n)) :
    ∃ M', fillUpper sz p n M = .ok M' ∧ Only (reg p (n * n)) M M' ∧
      ∀ i j : Fin n, matAt M' p n n i j = if j ≤ i then matAt M p n n i j else matAt M p n n j i := by
  unfold fillUpper
  let T : ℕ → ℝ := fun x => if x % n ≤ x / n then M p.arr (p.off + x) else M p.arr (p.off + (x % n * n + x / n))
  have keep : ∀ i < n, ∀ j < n, j ≤ i → T (i * n + j) = M p.arr (p.off + (i * n + j)) := by
    intro i hi j hj h
    simp only [T, idx_div hj, idx_mod hj]
    rw [if_pos h]
  have new : ∀ i < n, ∀ j < n, i < j → T (i * n + j) = M p.arr (p.off + (j * n + i)) := by
    intro i hi j hj h
    simp only [T, idx_div hj, idx_mod hj]
    rw [if_neg (by omega)]
  obtain ⟨M', e, g⟩ := forD_step (p := p) (len := n * n) (T := T) (fun i x => ∃ k < n - (i + 1), x = i * n + (i + 1 + k)) n
    (fun i => forD (n - (i + 1)) fun j M =>
      ldd sz p ((i + 1 + j) * n + i) M >>= fun v => std sz p (i * n + (i + 1 + j)) v M) M (by
      intro i hin M1 k1
      refine forD_write (fun j => i * n + (i + 1 + j)) (n - (i + 1)) (fun j M => ldd sz p ((i + 1 + j) * n + i) M) M1 hi
        (fun j hj => idx_lt hin (by omega)) ?_
      intro j hj M2 k2
      have l : (i + 1 + j) * n + i < n * n := idx_lt (by omega) hin
      rw [ldd_ok _ (by unfold inside at hi; omega),
        k2.2.2 _ (k1.2.2 _ (keep (i + 1 + j) (by omega) i hin (by omega)).symm),
        keep (i + 1 + j) (by omega) i hin (by omega), new i hin _ (by omega) (by omega)])
  refine ⟨M', e, g.1, ?_⟩
  intro i j
  show M' p.arr (p.off + _) = _
  split
  · rename_i h
    rw [g.2.2 _ (keep i i.2 j j.2 h).symm, keep i i.2 j j.2 h]; rfl
  · rename_i h
    have h' : (i : ℕ) < j := by
      have := lt_of_not_ge h
      exact this
    rw [g.2.1 _ ⟨i, i.2, j - (i + 1), by omega, by congr 1; omega⟩, new i i.2 j j.2 h']; rfl

theorem fTri_spec {sz : Arr → ℕ} {t : ℕ → ℝ} {n : ℕ} {a1 c1 : ℝ} {W D A : DPtr} {M : Mem} {w d : ℕ → ℝ}
    (hA : inside sz A (n * n)) (hW : inside sz W n) (hD : inside sz D n) (d1 : apart W n A (n * n)) (d2 : apart D n A (n * n))
    (vW : ∀ i < n, M W.arr (W.off + i) = w i) (vD : ∀ i < n, M D.arr (D.off + i) = d i) :
    ∃ M', fTri sz t n a1 c1 W D A M = .ok (ssLndet d n, M') ∧ Only (reg A (n * n)) M M' ∧
      lowerPart (matAt M' A n n) = ssLower t a1 c1 w d n := by
  unfold fTri
  let F : ℕ → ℕ → ℝ := fun i j => if j = i then 1 * Real.sqrt (d i) else a1 * (Real.exp (-c1 * (t i - t j)) * w j) * Real.sqrt (d j)
  let T : ℕ → ℝ := fun x => F (x / n) (x % n)
  have hT : ∀ i j, j < n → T (i * n + j) = F i j := by
    intro i j hj
    simp only [T, idx_div hj, idx_mod hj]
  obtain ⟨s, e, g1, g2⟩ := forD_inv (fun i (s : ℝ × Mem) => s.1 = ssLndet d i ∧
      Step A (n * n) T (fun x => ∃ k < i, ∃ j ≤ k, x = k * n + j) M s.2) n
    (fun i (s : ℝ × Mem) =>
      ldd sz D i s.2 >>= fun di =>
      std sz A (i * n + i) (1 * Real.sqrt di) s.2 >>=
      forD i (fun j M =>
        ldd sz W j M >>= fun wj => ldd sz D j M >>= fun dj =>
        std sz A (i * n + j) (a1 * (Real.exp (-c1 * (t i - t j)) * wj) * Real.sqrt dj) M) >>= fun M =>
      ldd sz D i M >>= fun di => .ok (s.1 + Real.log di, M)) (0, M)
    ⟨rfl, (Step.refl _ _ _ _).mono (by rintro x ⟨k, hk, -⟩; omega)⟩ (by
      rintro i hi ⟨l0, M1⟩ ⟨h1, h2⟩
      dsimp only at h1 h2
      unfold inside at hA hW hD
      have l := idx_lt hi hi
      rw [ldd_ok _ (by omega), Res.ok_bind, std_ok _ (by omega), Res.ok_bind]
      dsimp only
      rw [h2.1.out d2 hi, vD i hi]
      have s1 := Step.upd (p := A) M1 T l
      have t1 : T (i * n + i) = 1 * Real.sqrt (d i) := by rw [hT _ _ hi]; simp [F]
      rw [t1] at s1
      have s2 := h2.trans s1
      obtain ⟨M3, e3, s3⟩ := forD_step (p := A) (len := n * n) (T := T) (fun j x => x = i * n + j) i
        (fun j M =>
          ldd sz W j M >>= fun wj => ldd sz D j M >>= fun dj =>
          std sz A (i * n + j) (a1 * (Real.exp (-c1 * (t i - t j)) * wj) * Real.sqrt dj) M)
        (upd M1 A (i * n + i) (1 * Real.sqrt (d i))) (by
          intro j hj M2 k2
          have hjn : j < n := by omega
          have lj := idx_lt hi hjn
          have o := s2.1.trans k2.1
          rw [ldd_ok _ (by omega), Res.ok_bind, ldd_ok _ (by omega), Res.ok_bind, std_ok _ (by omega), o.out d1 hjn, o.out d2 hjn,
            vW j hjn, vD j hjn]
          have tj : T (i * n + j) = a1 * (Real.exp (-c1 * (t i - t j)) * w j) * Real.sqrt (d j) := by
            rw [hT _ _ hjn]; simp only [F]; rw [if_neg (by omega)]
          rw [← tj]
          exact ⟨_, rfl, Step.upd _ _ lj⟩)
      rw [e3, Res.ok_bind, ldd_ok _ (by omega), Res.ok_bind]
      have s4 := s2.trans s3
      refine ⟨_, rfl, ?_, s4.mono ?_⟩
      · dsimp only
        rw [s4.1.out d2 hi, vD i hi, h1]; rfl
      · rintro x ⟨k, hk, j, hj, rfl⟩
        by_cases hki : k = i
        · subst hki
          by_cases hjk : j = k
          · subst hjk; exact .inl (.inr rfl)
          · exact .inr ⟨j, by omega, rfl⟩
        · exact .inl (.inl ⟨k, by omega, j, hj, rfl⟩))
  obtain ⟨l, M'⟩ := s
  dsimp only at g1 g2
  refine ⟨M', by rw [e, g1], g2.1, ?_⟩
  ext i j
  unfold lowerPart ssLower
  split
  · rename_i h
    show M' A.arr (A.off + _) = _
    rw [g2.2.1 _ ⟨i, i.2, j, h, rfl⟩, hT _ _ j.2]
    by_cases hij : j = i
    · subst hij; simp [F]
    · rw [if_neg hij, if_pos (lt_of_le_of_ne h hij)]
      simp only [F]
      rw [if_neg (fun hh => hij (Fin.ext hh))]
  · rename_i h
    rw [if_neg (fun hh => h (by rw [hh])), if_neg (fun hh => h hh.le)]

theorem ssLower_tri (t : ℕ → ℝ) (a1 c1 : ℝ) (w d : ℕ → ℝ) (n : ℕ) : (ssLower t a1 c1 w d n).IsLowerTriangular := by
  intro i j h
  have h' : i < j := h
  unfold ssLower
  rw [if_neg h'.ne', if_neg h'.asymm]

theorem ssLower_inv_lower {t : ℕ → ℝ} {a1 c1 : ℝ} {w d : ℕ → ℝ} {n : ℕ} (hd : ∀ i < n, 0 < d i) :
    lowerPart (ssLower t a1 c1 w d n)⁻¹ = (ssLower t a1 c1 w d n)⁻¹ := by
  have hdet : IsUnit (ssLower t a1 c1 w d n).det := by
    rw [Matrix.det_of_isLowerTriangular _ (ssLower_tri t a1 c1 w d n), isUnit_iff_ne_zero, Finset.prod_ne_zero_iff]
    intro i _
    simp only [ssLower, if_true, one_mul]
    exact (Real.sqrt_pos.2 (hd i i.2)).ne'
  have := Matrix.invertibleOfIsUnitDet _ hdet
  have h := Matrix.blockTriangular_inv_of_blockTriangular (ssLower_tri t a1 c1 w d n)
  ext i j
  unfold lowerPart
  split
  · rfl
  · rename_i hij
    exact (h (i := i) (j := j) (lt_of_not_ge hij)).symm

/-- `inverse_semiseparable` leaves the inverse. -/
theorem fInverseSemi_spec {sz : Arr → ℕ} {t : ℕ → ℝ} {n : ℕ} {a1 c1 : ℝ} {rd : ℕ → Mem → Res ℝ} {sigma : ℕ → ℝ} {syserr : ℝ}
    {W D phi A : DPtr} {M : Mem} (hn : 0 < n) (hW : inside sz W n) (hD : inside sz D n) (hp : inside sz phi n)
    (hA : inside sz A (n * n)) (d1 : apart W n D n) (d2 : apart W n phi n) (d3 : apart D n phi n)
    (d4 : apart W n A (n * n)) (d5 : apart D n A (n * n)) (d6 : apart phi n A (n * n))
    (hrd : ∀ i < n, ∀ M', Only (fun A x => reg W n A x ∨ reg D n A x ∨ reg phi n A x) M M' → rd i M' = .ok (sigma i))
    (hpos : ∀ i < n, 0 < ssD t a1 c1 sigma syserr i) :
    ∃ M', fInverseSemi sz t n a1 c1 rd syserr W D phi A M = .ok (some (ssLndet (ssD t a1 c1 sigma syserr) n, M')) ∧
      Only (fun B x => reg W n B x ∨ reg D n B x ∨ reg phi n B x ∨ reg A (n * n) B x) M M' ∧
      (∀ i < n, M' W.arr (W.off + i) = ssW t a1 c1 sigma syserr i) ∧
      (∀ i < n, M' D.arr (D.off + i) = ssD t a1 c1 sigma syserr i) ∧
      (∀ i < n, M' phi.arr (phi.off + i) = ssPhi t c1 i) ∧
      matAt M' A n n = ssInverse t a1 c1 (ssW t a1 c1 sigma syserr) (ssD t a1 c1 sigma syserr) n := by
  unfold fInverseSemi
  obtain ⟨M1, e1, o1, vW, vD, vP⟩ := fSemi_spec (sz := sz) (t := t) (n := n) (a1 := a1) (c1 := c1) (rd := rd) (sigma := sigma)
    (syserr := syserr) (W := W) (D := D) (phi := phi) (M := M) hn hW hD hp d1 d2 d3 hrd
  rw [e1, Res.ok_bind]
  obtain ⟨M2, e2, o2, v2⟩ := fTri_spec (t := t) (a1 := a1) (c1 := c1) hA hW hD d4 d5 vW vD
  rw [e2, Res.ok_bind]
  dsimp only
  rw [if_neg (by
    rintro ⟨i, hi, h⟩
    rw [o2.out d5 hi, vD i hi] at h
    exact absurd (hpos i hi) (not_lt.2 h))]
  obtain ⟨M3, e3, o3, v3⟩ := mapLower_spec (f := fun L => L⁻¹) (M := M2) hA
  obtain ⟨M4, e4, o4, v4⟩ := mapLower_spec (f := fun L => Lᵀ * L) (M := M3) hA
  obtain ⟨M5, e5, o5, v5⟩ := fillUpper_spec (M := M4) hA
  unfold dtrtri dlauum
  rw [e3, Res.ok_bind, e4, Res.ok_bind, e5, Res.ok_bind]
  have o25 := ((o2.trans o3).trans o4).trans o5
  refine ⟨M5, rfl, ?_, fun i hi => ?_, fun i hi => ?_, fun i hi => ?_, ?_⟩
  · refine Only.trans (M' := M1) (o1.mono ?_) (o25.mono fun _ _ h => .inr (.inr (.inr h)))
    rintro B x (h | h | h)
    · exact .inl h
    · exact .inr (.inl h)
    · exact .inr (.inr (.inl h))
  · rw [o25.out d4 hi, vW i hi]
  · rw [o25.out d5 hi, vD i hi]
  · rw [o25.out d6 hi, vP i hi]
  · have l3 : lowerPart (matAt M3 A n n) = (ssLower t a1 c1 (ssW t a1 c1 sigma syserr) (ssD t a1 c1 sigma syserr) n)⁻¹ := by
      rw [← ssLower_inv_lower hpos]
      ext i j
      unfold lowerPart
      split
      · rename_i h
        rw [v3 i j h, v2]
      · rfl
    ext i j
    rw [v5 i j]
    unfold ssInverse
    split
    · rename_i h
      rw [v4 i j h, l3]
    · rename_i h
      rw [v4 j i (lt_of_not_ge h).le, l3]

end Mica
