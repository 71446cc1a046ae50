import Verif.Proof.Flat
import Verif.Proof.BlockInv0

/-! The inverse of a symmetric matrix and the semiseparable solver on memory (`Model/Flat.lean`). -/

namespace Mica

open Matrix

theorem fillLower_spec {sz : Arr → ℕ} {p : DPtr} {n : ℕ} {M : Mem} (hi : inside sz p (n * n)) :
    ∃ M', fillLower sz p n M = .ok M' ∧ Only (reg p (n * n)) M M' ∧ matAt M' p n n = upperSym (matAt M p n n) := by
  unfold fillLower
  -- values and frame after `i` rows
  let P : ℕ → Mem → Prop := fun i M' =>
    (∀ r < i, ∀ c < r, M' p.arr (p.off + (r * n + c)) = M p.arr (p.off + (c * n + r))) ∧
    Only (fun A x => A = p.arr ∧ ∃ r c, c < r ∧ r < i ∧ r < n ∧ x = p.off + (r * n + c)) M M'
  obtain ⟨M', e, h1, h2⟩ := forD_inv P n
    (fun i => forD i fun j M => ldd sz p (j * n + i) M >>= fun v => std sz p (i * n + j) v M) M
    ⟨fun r hr => by omega, Only.refl _ _⟩ (by
      intro i hin M1 ⟨a1, a2⟩
      let Q : ℕ → Mem → Prop := fun j M' =>
        (∀ r < i, ∀ c < r, M' p.arr (p.off + (r * n + c)) = M p.arr (p.off + (c * n + r))) ∧
        (∀ c < j, M' p.arr (p.off + (i * n + c)) = M p.arr (p.off + (c * n + i))) ∧
        Only (fun A x => A = p.arr ∧ ∃ r c, c < r ∧ r < i + 1 ∧ r < n ∧ x = p.off + (r * n + c)) M M'
      obtain ⟨M2, e2, b1, b2, b3⟩ := forD_inv Q i
        (fun j M => ldd sz p (j * n + i) M >>= fun v => std sz p (i * n + j) v M) M1
        ⟨a1, fun c hc => by omega, a2.mono fun A x ⟨h, r, c, h1, h2, h3, h4⟩ => ⟨h, r, c, h1, by omega, h3, h4⟩⟩ (by
          intro j hj M2 ⟨b1, b2, b3⟩
          have g1 : p.off + (j * n + i) < sz p.arr := by
            have := idx_lt (show j < n by omega) hin; unfold inside at hi; omega
          have g2 : p.off + (i * n + j) < sz p.arr := by
            have := idx_lt hin (show j < n by omega); unfold inside at hi; omega
          have hv : M2 p.arr (p.off + (j * n + i)) = M p.arr (p.off + (j * n + i)) := by
            apply b3
            rintro ⟨-, r, c, h1, -, h3, h4⟩
            have := idx_inj hin (show c < n by omega) (show j * n + i = r * n + c by omega)
            omega
          refine ⟨upd M2 p (i * n + j) (M p.arr (p.off + (j * n + i))), ?_, ?_, ?_, ?_⟩
          · rw [ldd_ok _ g1, Res.ok_bind, std_ok _ g2, hv]
          · intro r hr c hc
            rw [upd_ne, b1 r hr c hc]
            right
            intro h
            have := idx_inj (show c < n by omega) (show j < n by omega) (show r * n + c = i * n + j by omega)
            omega
          · intro c hc
            by_cases hcj : c = j
            · subst hcj; rw [upd_same]
            · rw [upd_ne, b2 c (by omega)]
              right; omega
          · refine b3.trans ((only_upd M2 p _ _).mono ?_)
            rintro A x ⟨h1, h2⟩
            exact ⟨h1, i, j, hj, by omega, hin, h2⟩)
      refine ⟨M2, e2, ?_, b3⟩
      intro r hr c hc
      by_cases hri : r = i
      · subst hri; exact b2 c hc
      · exact b1 r (by omega) c hc)
  refine ⟨M', e, h2.mono ?_, ?_⟩
  · rintro A x ⟨h, r, c, h1, _, h3, h4⟩
    have := idx_lt h3 (show c < n by omega)
    exact ⟨h, by omega, by omega⟩
  · ext i j
    unfold upperSym
    split
    · rename_i hij
      have hij' : (i : ℕ) ≤ j := hij
      unfold matAt
      apply h2
      rintro ⟨-, r, c, g1, -, g3, g4⟩
      have := idx_inj j.2 (show c < n by omega) (show (i : ℕ) * n + j = r * n + c by omega)
      omega
    · rename_i hij
      have hij' : (j : ℕ) < i := by have : j < i := not_le.1 hij; exact this
      exact h1 i i.2 j hij'

theorem fInverseSymat_spec {sz : Arr → ℕ} {p : DPtr} {n : ℕ} {M : Mem} (hi : inside sz p (n * n))
    (hp : n ≤ sz (.sh .ipiv)) (hd : (upperSym (matAt M p n n)).det ≠ 0) :
    ∃ M', fInverseSymat sz p n M = .ok (some (lndetSymat (matAt M p n n), signSymat (matAt M p n n), M')) ∧
      Only (reg p (n * n)) M M' ∧ matAt M' p n n = inverseSymat (matAt M p n n) := by
  unfold fInverseSymat dsytri
  rw [if_neg (by simp only [hi, hp, and_self, not_true_eq_false, not_false_eq_true]), if_neg hd, if_pos ⟨hi, hp⟩]
  simp only [Res.ok_bind]
  set M1 : Mem := fun A x =>
      if A = p.arr ∧ p.off ≤ x ∧ x < p.off + n * n ∧ (x - p.off) / n ≤ (x - p.off) % n then
        arrayOf (upperSym (matAt M p n n))⁻¹ ((x - p.off) / n) ((x - p.off) % n)
      else M A x with hM1
  have o1 : Only (reg p (n * n)) M M1 := by
    intro A x hx
    rw [hM1]
    exact if_neg fun ⟨h1, h2, h3, _⟩ => hx ⟨h1, h2, h3⟩
  obtain ⟨M2, e2, o2, h2⟩ := fillLower_spec (M := M1) hi
  rw [e2]
  refine ⟨M2, rfl, o1.trans o2, ?_⟩
  rw [h2]
  unfold inverseSymat
  apply upperSym_congr
  intro i j hij
  have hx : p.off + ((i : ℕ) * n + j) - p.off = i * n + j := by omega
  have hlt := idx_lt i.2 j.2
  show M1 p.arr (p.off + ((i : ℕ) * n + j)) = _
  rw [hM1]
  beta_reduce
  rw [hx, idx_div j.2, idx_mod j.2, if_pos ⟨rfl, by omega, by omega, hij⟩]
  simp [arrayOf]

theorem fInverseSymat_none {sz : Arr → ℕ} {p : DPtr} {n : ℕ} {M : Mem} (hi : inside sz p (n * n))
    (hp : n ≤ sz (.sh .ipiv)) (hd : (upperSym (matAt M p n n)).det = 0) :
    fInverseSymat sz p n M = .ok none := by
  unfold fInverseSymat
  rw [if_neg (by simp only [hi, hp, and_self, not_true_eq_false, not_false_eq_true]), if_pos hd]

/-- The loops over the trend matrix. -/
theorem fTrendCon_spec {sz : Arr → ℕ} {t : ℕ → ℝ} {n nq : ℕ} {L : DPtr} {M : Mem} (hq : 0 < nq)
    (hi : inside sz L (n * nq)) :
    ∃ M', fTrendCon sz t n nq L M = .ok M' ∧ Only (reg L (n * nq)) M M' ∧ matAt M' L n nq = trendMat t n nq := by
  unfold fTrendCon
  let P : ℕ → Mem → Prop := fun i M' =>
    (∀ r < i, ∀ c < nq, M' L.arr (L.off + (r * nq + c)) = if c = 0 then 1 else t r ^ c) ∧
    Only (reg L (n * nq)) M M'
  obtain ⟨M', e, h1, h2⟩ := forD_inv P n
    (fun i M => std sz L (i * nq) 1 M >>= forD (nq - 1) fun j => std sz L (i * nq + (j + 1)) (t i ^ (j + 1))) M
    ⟨fun r hr => by omega, Only.refl _ _⟩ (by
      intro i hin M1 ⟨a1, a2⟩
      have g0 : L.off + (i * nq) < sz L.arr := by
        have := idx_lt hin hq; unfold inside at hi; omega
      rw [std_ok _ g0, Res.ok_bind]
      let Q : ℕ → Mem → Prop := fun j M' =>
        (∀ r < i, ∀ c < nq, M' L.arr (L.off + (r * nq + c)) = if c = 0 then 1 else t r ^ c) ∧
        (∀ c < j + 1, M' L.arr (L.off + (i * nq + c)) = if c = 0 then 1 else t i ^ c) ∧
        Only (reg L (n * nq)) M M'
      have keep : ∀ (M2 : Mem) (j : ℕ) (v : ℝ), j < nq →
          (∀ r < i, ∀ c < nq, M2 L.arr (L.off + (r * nq + c)) = if c = 0 then 1 else t r ^ c) →
          (∀ r < i, ∀ c < nq, upd M2 L (i * nq + j) v L.arr (L.off + (r * nq + c)) = if c = 0 then 1 else t r ^ c) := by
        intro M2 j v hj h r hr c hc
        rw [upd_ne, h r hr c hc]
        right
        intro h
        have := idx_inj hc hj (show r * nq + c = i * nq + j by omega)
        omega
      have keepO : ∀ (M2 : Mem) (j : ℕ) (v : ℝ), j < nq → Only (reg L (n * nq)) M M2 →
          Only (reg L (n * nq)) M (upd M2 L (i * nq + j) v) := by
        intro M2 j v hj h
        refine h.trans ((only_upd M2 L _ _).mono ?_)
        rintro A x ⟨h1, h2⟩
        have := idx_lt hin hj
        exact ⟨h1, by omega, by omega⟩
      obtain ⟨M2, e2, b1, b2, b3⟩ := forD_inv Q (nq - 1) (fun j => std sz L (i * nq + (j + 1)) (t i ^ (j + 1)))
        (upd M1 L (i * nq) 1) ⟨keep M1 0 1 hq a1, by
            intro c hc
            have : c = 0 := by omega
            subst this
            simp, keepO M1 0 1 hq a2⟩ (by
          intro j hj M2 ⟨b1, b2, b3⟩
          have g : L.off + (i * nq + (j + 1)) < sz L.arr := by
            have := idx_lt hin (show j + 1 < nq by omega); unfold inside at hi; omega
          refine ⟨_, std_ok _ g, keep M2 (j + 1) _ (by omega) b1, ?_, keepO M2 (j + 1) _ (by omega) b3⟩
          intro c hc
          by_cases hcj : c = j + 1
          · subst hcj; rw [upd_same]; simp
          · rw [upd_ne, b2 c (by omega)]
            right; omega)
      refine ⟨M2, e2, ?_, b3⟩
      intro r hr c hc
      by_cases hri : r = i
      · subst hri; exact b2 c (by omega)
      · exact b1 r (by omega) c hc)
  refine ⟨M', e, h2, ?_⟩
  ext i j
  exact h1 i i.2 j j.2

theorem fLndet_spec {sz : Arr → ℕ} {D : DPtr} {n : ℕ} {M : Mem} (hi : inside sz D n) {d : ℕ → ℝ}
    (hd : ∀ i < n, M D.arr (D.off + i) = d i) : fLndet sz D n M = .ok (ssLndet d n) := by
  unfold fLndet
  obtain ⟨s, e, h⟩ := forD_inv (fun i s => s = ssLndet d i) n
    (fun i s => ldd sz D i M >>= fun d => .ok (s + Real.log d)) 0 rfl (by
      intro i hin s hs
      have g : D.off + i < sz D.arr := by unfold inside at hi; omega
      refine ⟨_, by rw [ldd_ok _ g, Res.ok_bind], ?_⟩
      rw [hs, hd i hin]; rfl)
  rw [e, h]

/-- `compute_semiseparable_drw` fills its three arrays. -/
theorem fSemi_spec {sz : Arr → ℕ} {t : ℕ → ℝ} {n : ℕ} {a1 c1 : ℝ} {rd : ℕ → Mem → Res ℝ} {sigma : ℕ → ℝ} {syserr : ℝ}
    {W D phi : DPtr} {M : Mem}
    (hn : 0 < n) (hW : inside sz W n) (hD : inside sz D n) (hp : inside sz phi n)
    (d1 : apart W n D n) (d2 : apart W n phi n) (d3 : apart D n phi n)
    (hrd : ∀ i < n, ∀ M', Only (fun A x => reg W n A x ∨ reg D n A x ∨ reg phi n A x) M M' → rd i M' = .ok (sigma i)) :
    ∃ M', fSemi sz t n a1 c1 rd syserr W D phi M = .ok M' ∧
      Only (fun A x => reg W n A x ∨ reg D n A x ∨ reg phi n A x) M M' ∧
      (∀ i < n, M' W.arr (W.off + i) = ssW t a1 c1 sigma syserr i) ∧
      (∀ i < n, M' D.arr (D.off + i) = ssD t a1 c1 sigma syserr i) ∧
      (∀ i < n, M' phi.arr (phi.off + i) = ssPhi t c1 i) := by
  have iW : ∀ i < n, W.off + i < sz W.arr := fun i hi => by unfold inside at hW; omega
  have iD : ∀ i < n, D.off + i < sz D.arr := fun i hi => by unfold inside at hD; omega
  have iP : ∀ i < n, phi.off + i < sz phi.arr := fun i hi => by unfold inside at hp; omega
  have neWD : ∀ i < n, ∀ j < n, W.arr ≠ D.arr ∨ W.off + i ≠ D.off + j := by
    intro i hi j hj
    rcases d1 with h | h | h
    · exact .inl h
    · right; omega
    · right; omega
  have neWP : ∀ i < n, ∀ j < n, W.arr ≠ phi.arr ∨ W.off + i ≠ phi.off + j := by
    intro i hi j hj
    rcases d2 with h | h | h
    · exact .inl h
    · right; omega
    · right; omega
  have neDP : ∀ i < n, ∀ j < n, D.arr ≠ phi.arr ∨ D.off + i ≠ phi.off + j := by
    intro i hi j hj
    rcases d3 with h | h | h
    · exact .inl h
    · right; omega
    · right; omega
  have sw : ∀ {A B : Arr} {x y : ℕ}, (A ≠ B ∨ x ≠ y) → (B ≠ A ∨ y ≠ x) := fun h => h.imp Ne.symm Ne.symm
  let R : Arr → ℕ → Prop := fun A x => reg W n A x ∨ reg D n A x ∨ reg phi n A x
  have oW : ∀ (M : Mem) i v, i < n → Only R M (upd M W i v) := fun M i v hi =>
    (only_upd M W i v).mono fun A x ⟨h1, h2⟩ => .inl ⟨h1, by omega, by omega⟩
  have oD : ∀ (M : Mem) i v, i < n → Only R M (upd M D i v) := fun M i v hi =>
    (only_upd M D i v).mono fun A x ⟨h1, h2⟩ => .inr (.inl ⟨h1, by omega, by omega⟩)
  have oP : ∀ (M : Mem) i v, i < n → Only R M (upd M phi i v) := fun M i v hi =>
    (only_upd M phi i v).mono fun A x ⟨h1, h2⟩ => .inr (.inr ⟨h1, by omega, by omega⟩)
  unfold fSemi
  rw [std_ok _ (iP 0 hn), Res.ok_bind]
  obtain ⟨M1, e1, p1, p2⟩ := forD_inv (fun k M' => (∀ i < k + 1, M' phi.arr (phi.off + i) = ssPhi t c1 i) ∧ Only R M M') (n - 1)
    (fun i => std sz phi (i + 1) (Real.exp (-c1 * (t (i + 1) - t i)))) (upd M phi 0 0)
    ⟨by
      intro i hi
      have : i = 0 := by omega
      subst this
      rw [upd_same]; rfl, oP _ _ _ hn⟩ (by
      intro i hi M1 ⟨h1, h2⟩
      refine ⟨_, std_ok _ (iP (i + 1) (by omega)), ?_, h2.trans (oP _ _ _ (by omega))⟩
      intro j hj
      by_cases hji : j = i + 1
      · subst hji; rw [upd_same]; rfl
      · rw [upd_ne (.inr (by omega)), h1 j (by omega)])
  rw [e1, Res.ok_bind]
  rw [hrd 0 hn M1 p2, Res.ok_bind, std_ok _ (iD 0 hn), Res.ok_bind, ldd_ok _ (iD 0 hn), Res.ok_bind, upd_same, std_ok _ (iW 0 hn), Res.ok_bind]
  set A0 := sigma 0 * sigma 0 + syserr * syserr + a1 with hA0
  let st := ssState t a1 c1 sigma syserr
  obtain ⟨s, e, q1, q2, q3, q4, q5⟩ := forD_inv (fun k (s : ℝ × Mem) => s.1 = (st k).1 ∧
      (∀ i < k + 1, s.2 W.arr (W.off + i) = (st i).2.2) ∧ (∀ i < k + 1, s.2 D.arr (D.off + i) = (st i).2.1) ∧
      (∀ i < n, s.2 phi.arr (phi.off + i) = ssPhi t c1 i) ∧ Only R M s.2) (n - 1)
    (fun i (s : ℝ × Mem) =>
      ldd sz phi (i + 1) s.2 >>= fun ph =>
      ldd sz D i s.2 >>= fun d =>
      ldd sz W i s.2 >>= fun w =>
      let S := ph * ph * (s.1 + d * w * w)
      rd (i + 1) s.2 >>= fun si =>
      let A := si * si + syserr * syserr + a1
      std sz D (i + 1) (A - a1 * a1 * S) s.2 >>= fun M =>
      ldd sz D (i + 1) M >>= fun d' =>
      std sz W (i + 1) (1 / d' * (1 - a1 * S)) M >>= fun M => .ok (S, M))
    (0, upd (upd M1 D 0 A0) W 0 (1 / A0))
    ⟨rfl, by
      intro i hi
      have : i = 0 := by omega
      subst this
      simp only [upd_same]; rfl, by
      intro i hi
      have : i = 0 := by omega
      subst this
      dsimp only
      rw [upd_ne (sw (neWD 0 hn 0 hn)), upd_same]; rfl, by
      intro i hi
      dsimp only
      rw [upd_ne (sw (neWP 0 hn i hi)), upd_ne (sw (neDP 0 hn i hi)), p1 i (by omega)],
      (p2.trans (oD _ _ _ hn)).trans (oW _ _ _ hn)⟩ (by
      rintro i hi ⟨S0, M2⟩ ⟨h1, h2, h3, h4, h5⟩
      simp only at h1 h2 h3 h4 h5
      have hi1 : i + 1 < n := by omega
      have hin : i < n := by omega
      rw [ldd_ok _ (iP (i + 1) hi1), Res.ok_bind, ldd_ok _ (iD i hin), Res.ok_bind, ldd_ok _ (iW i hin), Res.ok_bind]
      simp only [h4 (i + 1) hi1, h3 i (by omega), h2 i (by omega), h1]
      rw [hrd (i + 1) hi1 M2 h5, Res.ok_bind]
      rw [std_ok _ (iD (i + 1) hi1), Res.ok_bind, ldd_ok _ (iD (i + 1) hi1), Res.ok_bind, upd_same,
        std_ok _ (iW (i + 1) hi1), Res.ok_bind]
      refine ⟨_, rfl, rfl, ?_, ?_, ?_, (h5.trans (oD _ _ _ hi1)).trans (oW _ _ _ hi1)⟩
      · intro j hj
        by_cases hji : j = i + 1
        · subst hji; simp only [upd_same]; rfl
        · simp only
          rw [upd_ne (.inr (by omega)), upd_ne (neWD j (by omega) _ hi1), h2 j (by omega)]
      · intro j hj
        simp only
        rw [upd_ne (sw (neWD _ hi1 j (by omega)))]
        by_cases hji : j = i + 1
        · subst hji; rw [upd_same]; rfl
        · rw [upd_ne (.inr (by omega)), h3 j (by omega)]
      · intro j hj
        simp only
        rw [upd_ne (sw (neWP _ hi1 j hj)), upd_ne (sw (neDP _ hi1 j hj)), h4 j hj])
  rw [e, Res.ok_bind]
  refine ⟨_, rfl, q5, fun i hi => ?_, fun i hi => ?_, q4⟩
  · exact q2 i (by omega)
  · exact q3 i (by omega)

/-- Addresses of one column. -/
def col (Z : DPtr) (az : ℕ → ℕ) (n : ℕ) (A : Arr) (x : ℕ) : Prop := A = Z.arr ∧ ∃ i < n, x = Z.off + az i

theorem only_col (M : Mem) (Z : DPtr) (az : ℕ → ℕ) {n i : ℕ} (v : ℝ) (hi : i < n) : Only (col Z az n) M (upd M Z (az i) v) :=
  (only_upd M Z (az i) v).mono fun _ _ ⟨h1, h2⟩ => ⟨h1, i, hi, h2⟩

theorem fFwd_spec {sz : Arr → ℕ} {Y : DPtr} {ay : ℕ → ℕ} {W phi : DPtr} {n : ℕ} {a1 : ℝ} {Z : DPtr} {az : ℕ → ℕ} {M : Mem}
    {y w ph : ℕ → ℝ} (hn : 0 < n)
    (iY : ∀ i < n, Y.off + ay i < sz Y.arr) (iZ : ∀ i < n, Z.off + az i < sz Z.arr)
    (iW : ∀ i < n, W.off + i < sz W.arr) (iP : ∀ i < n, phi.off + i < sz phi.arr)
    (inj : ∀ i < n, ∀ j < n, az i = az j → i = j)
    (dY : ∀ i < n, ¬ col Z az n Y.arr (Y.off + ay i)) (dW : ∀ i < n, ¬ col Z az n W.arr (W.off + i))
    (dP : ∀ i < n, ¬ col Z az n phi.arr (phi.off + i))
    (vY : ∀ i < n, M Y.arr (Y.off + ay i) = y i) (vW : ∀ i < n, M W.arr (W.off + i) = w i)
    (vP : ∀ i < n, M phi.arr (phi.off + i) = ph i) :
    ∃ M', fFwd sz Y ay W phi n a1 Z az M = .ok M' ∧ Only (col Z az n) M M' ∧
      ∀ i < n, M' Z.arr (Z.off + az i) = (ssFwd y w ph a1 i).2 := by
  unfold fFwd
  rw [ldd_ok _ (iY 0 hn), Res.ok_bind, std_ok _ (iZ 0 hn), Res.ok_bind, vY 0 hn]
  obtain ⟨s, e, h1, h2, h3⟩ := forD_inv (fun k (s : ℝ × Mem) => s.1 = (ssFwd y w ph a1 k).1 ∧
      (∀ i < k + 1, s.2 Z.arr (Z.off + az i) = (ssFwd y w ph a1 i).2) ∧ Only (col Z az n) M s.2) (n - 1)
    (fun i (s : ℝ × Mem) =>
      ldd sz phi (i + 1) s.2 >>= fun ph =>
      ldd sz W i s.2 >>= fun w =>
      ldd sz Z (az i) s.2 >>= fun z =>
      let f := ph * (s.1 + w * z)
      ldd sz Y (ay (i + 1)) s.2 >>= fun y =>
      std sz Z (az (i + 1)) (y - a1 * f) s.2 >>= fun M => .ok (f, M)) (0, upd M Z (az 0) (y 0))
    ⟨rfl, by
      intro i hi
      have : i = 0 := by omega
      subst this
      simp only [upd_same]; rfl, only_col M Z az _ hn⟩ (by
      rintro i hi ⟨f, M1⟩ ⟨g1, g2, g3⟩
      dsimp only at g1 g2 g3
      have hi1 : i + 1 < n := by omega
      have hin : i < n := by omega
      rw [ldd_ok _ (iP _ hi1), Res.ok_bind, ldd_ok _ (iW _ hin), Res.ok_bind, ldd_ok _ (iZ _ hin), Res.ok_bind]
      dsimp only
      rw [ldd_ok _ (iY _ hi1), Res.ok_bind, std_ok _ (iZ _ hi1), Res.ok_bind]
      rw [g3 _ _ (dP _ hi1), vP _ hi1, g3 _ _ (dW _ hin), vW _ hin, g3 _ _ (dY _ hi1), vY _ hi1, g2 i (by omega), g1]
      refine ⟨_, rfl, rfl, ?_, g3.trans (only_col _ Z az _ hi1)⟩
      intro j hj
      dsimp only
      by_cases hji : j = i + 1
      · subst hji; rw [upd_same]; rfl
      · rw [upd_ne, g2 j (by omega)]
        right
        intro h
        exact hji (inj j (by omega) (i + 1) hi1 (by omega)))
  rw [e, Res.ok_bind]
  exact ⟨_, rfl, h3, fun i hi => h2 i (by omega)⟩

theorem fBack_spec {sz : Arr → ℕ} {W D phi : DPtr} {n : ℕ} {a1 : ℝ} {Z : DPtr} {az : ℕ → ℕ} {M : Mem}
    {z w d ph : ℕ → ℝ} (hn : 0 < n)
    (iZ : ∀ i < n, Z.off + az i < sz Z.arr)
    (iW : ∀ i < n, W.off + i < sz W.arr) (iD : ∀ i < n, D.off + i < sz D.arr) (iP : ∀ i < n, phi.off + i < sz phi.arr)
    (inj : ∀ i < n, ∀ j < n, az i = az j → i = j)
    (dW : ∀ i < n, ¬ col Z az n W.arr (W.off + i)) (dD : ∀ i < n, ¬ col Z az n D.arr (D.off + i))
    (dP : ∀ i < n, ¬ col Z az n phi.arr (phi.off + i))
    (vZ : ∀ i < n, M Z.arr (Z.off + az i) = z i) (vW : ∀ i < n, M W.arr (W.off + i) = w i)
    (vD : ∀ i < n, M D.arr (D.off + i) = d i)
    (vP : ∀ i < n, M phi.arr (phi.off + i) = ph i) :
    ∃ M', fBack sz W D phi n a1 Z az M = .ok M' ∧ Only (col Z az n) M M' ∧
      ∀ i < n, M' Z.arr (Z.off + az i) = (ssBack z w d ph n a1 (n - 1 - i)).2 := by
  unfold fBack
  have hn1 : n - 1 < n := by omega
  rw [ldd_ok _ (iZ _ hn1), Res.ok_bind, ldd_ok _ (iD _ hn1), Res.ok_bind, std_ok _ (iZ _ hn1), Res.ok_bind, vZ _ hn1, vD _ hn1]
  obtain ⟨s, e, h1, h2, h3, h4⟩ := forD_inv (fun k (s : ℝ × Mem) => s.1 = (ssBack z w d ph n a1 k).1 ∧
      (∀ l < k + 1, s.2 Z.arr (Z.off + az (n - 1 - l)) = (ssBack z w d ph n a1 l).2) ∧
      (∀ i < n - 1 - k, s.2 Z.arr (Z.off + az i) = z i) ∧ Only (col Z az n) M s.2) (n - 1)
    (fun k (s : ℝ × Mem) =>
      let i := n - 2 - k
      ldd sz phi (i + 1) s.2 >>= fun ph =>
      ldd sz Z (az (i + 1)) s.2 >>= fun z1 =>
      let g := ph * (s.1 + a1 * z1)
      ldd sz Z (az i) s.2 >>= fun z =>
      ldd sz D i s.2 >>= fun d =>
      ldd sz W i s.2 >>= fun w =>
      std sz Z (az i) (z / d - w * g) s.2 >>= fun M => .ok (g, M)) (0, upd M Z (az (n - 1)) (z (n - 1) / d (n - 1)))
    ⟨rfl, by
      intro i hi
      have : i = 0 := by omega
      subst this
      simp only [Nat.sub_zero, upd_same]; rfl, by
      intro i hi
      dsimp only
      rw [upd_ne, vZ i (by omega)]
      right
      intro h
      have := inj i (by omega) (n - 1) hn1 (by omega)
      omega, only_col M Z az _ hn1⟩ (by
      rintro k hk ⟨g, M1⟩ ⟨g1, g2, g3, g4⟩
      dsimp only at g1 g2 g3 g4 ⊢
      have hi1 : n - 2 - k + 1 < n := by omega
      have hin : n - 2 - k < n := by omega
      rw [ldd_ok _ (iP _ hi1), Res.ok_bind, ldd_ok _ (iZ _ hi1), Res.ok_bind]
      rw [ldd_ok _ (iZ _ hin), Res.ok_bind, ldd_ok _ (iD _ hin), Res.ok_bind, ldd_ok _ (iW _ hin), Res.ok_bind,
        std_ok _ (iZ _ hin), Res.ok_bind]
      have hz1 : M1 Z.arr (Z.off + az (n - 2 - k + 1)) = (ssBack z w d ph n a1 k).2 := by
        rw [← g2 k (by omega)]; congr 3; omega
      rw [g4 _ _ (dP _ hi1), vP _ hi1, g4 _ _ (dW _ hin), vW _ hin, g4 _ _ (dD _ hin), vD _ hin, hz1, g3 (n - 2 - k) (by omega), g1]
      refine ⟨_, rfl, rfl, ?_, ?_, g4.trans (only_col _ Z az _ hin)⟩
      · intro l hl
        dsimp only
        by_cases hlk : l = k + 1
        · subst hlk
          have : n - 1 - (k + 1) = n - 2 - k := by omega
          rw [this, upd_same]; rfl
        · rw [upd_ne, g2 l (by omega)]
          right
          intro h
          have := inj (n - 1 - l) (by omega) (n - 2 - k) hin (by omega)
          omega
      · intro i hi
        dsimp only
        rw [upd_ne, g3 i (by omega)]
        right
        intro h
        have := inj i (by omega) (n - 2 - k) hin (by omega)
        omega)
  rw [e, Res.ok_bind]
  refine ⟨_, rfl, h4, fun i hi => ?_⟩
  have := h2 (n - 1 - i) (by omega)
  have e2 : n - 1 - (n - 1 - i) = i := by omega
  rwa [e2] at this

/-- Reading outside of a piece. -/
theorem not_reg_of_apart {p q : DPtr} {l r x : ℕ} (h : apart q r p l) (hx : x < r) : ¬ reg p l q.arr (q.off + x) := by
  rintro ⟨h1, h2, h3⟩
  rcases h with h | h | h
  · exact h h1
  · omega
  · omega

theorem apart_symm {p q : DPtr} {l r : ℕ} (h : apart p l q r) : apart q r p l := by
  rcases h with h | h | h
  · exact .inl h.symm
  · exact .inr (.inr h)
  · exact .inr (.inl h)

theorem ssFwd_congr {y y' w w' ph ph' : ℕ → ℝ} {a1 : ℝ} {n : ℕ} (hy : ∀ i < n, y i = y' i) (hw : ∀ i < n, w i = w' i)
    (hp : ∀ i < n, ph i = ph' i) : ∀ i < n, ssFwd y w ph a1 i = ssFwd y' w' ph' a1 i := by
  intro i
  induction i with
  | zero => intro h; simp [ssFwd, hy 0 h]
  | succ i ih =>
    intro h
    simp only [ssFwd, ih (by omega), hy _ h, hw i (by omega), hp _ h]

theorem ssBack_congr {z z' w w' d d' ph ph' : ℕ → ℝ} {a1 : ℝ} {n : ℕ} (hz : ∀ i < n, z i = z' i) (hw : ∀ i < n, w i = w' i)
    (hd : ∀ i < n, d i = d' i) (hp : ∀ i < n, ph i = ph' i) (hn : 0 < n) :
    ∀ k < n, ssBack z w d ph n a1 k = ssBack z' w' d' ph' n a1 k := by
  intro k
  induction k with
  | zero => intro h; simp [ssBack, hz (n - 1) (by omega), hd (n - 1) (by omega)]
  | succ k ih =>
    intro h
    have h1 : n - 2 - k < n := by omega
    have h2 : n - 2 - k + 1 < n := by omega
    simp only [ssBack, ih (by omega), hz _ h1, hw _ h1, hp _ h2, hd _ h1]

theorem ssSolve_congr {y y' w w' d d' ph ph' : ℕ → ℝ} {a1 : ℝ} {n : ℕ} (hy : ∀ i < n, y i = y' i) (hw : ∀ i < n, w i = w' i)
    (hd : ∀ i < n, d i = d' i) (hp : ∀ i < n, ph i = ph' i) (hn : 0 < n) {i : ℕ} (hi : i < n) :
    ssSolve y w d ph n a1 i = ssSolve y' w' d' ph' n a1 i := by
  unfold ssSolve
  rw [ssBack_congr (fun i hi => by rw [ssFwd_congr hy hw hp i hi]) hw hd hp hn _ (by omega)]

/-- The solver for a vector. -/
theorem fSolveVec_spec {sz : Arr → ℕ} {y W D phi z : DPtr} {n : ℕ} {a1 : ℝ} {M : Mem} {w d ph : ℕ → ℝ} (hn : 0 < n)
    (iy : inside sz y n) (iW : inside sz W n) (iD : inside sz D n) (iP : inside sz phi n) (iz : inside sz z n)
    (ay : apart y n z n) (aW : apart W n z n) (aD : apart D n z n) (aP : apart phi n z n)
    (vW : ∀ i < n, M W.arr (W.off + i) = w i) (vD : ∀ i < n, M D.arr (D.off + i) = d i)
    (vP : ∀ i < n, M phi.arr (phi.off + i) = ph i) :
    ∃ M', fSolveVec sz y W D phi n a1 z M = .ok M' ∧ Only (reg z n) M M' ∧
      ∀ i < n, M' z.arr (z.off + i) = ssSolve (fun i => M y.arr (y.off + i)) w d ph n a1 i := by
  have cr : ∀ A x, col z id n A x → reg z n A x := by
    rintro A x ⟨h1, i, h2, h3⟩
    simp only [id] at h3
    exact ⟨h1, by omega, by omega⟩
  have inn : ∀ {p : DPtr}, inside sz p n → ∀ i < n, p.off + i < sz p.arr := fun h i hi => by unfold inside at h; omega
  have nc : ∀ {p : DPtr}, apart p n z n → ∀ i < n, ¬ col z id n p.arr (p.off + i) :=
    fun h i hi hc => not_reg_of_apart h hi (cr _ _ hc)
  obtain ⟨M1, e1, o1, v1⟩ := fFwd_spec (a1 := a1) (Z := z) (az := id) (Y := y) (ay := id) (y := fun i => M y.arr (y.off + i)) hn
    (inn iy) (inn iz) (inn iW) (inn iP) (fun i _ j _ h => h) (nc ay) (nc aW) (nc aP) (fun _ _ => rfl) vW vP
  obtain ⟨M2, e2, o2, v2⟩ := fBack_spec (a1 := a1) (Z := z) (az := id) (M := M1) hn (inn iz) (inn iW) (inn iD) (inn iP)
    (fun i _ j _ h => h) (nc aW) (nc aD) (nc aP) v1 (fun i hi => (o1 _ _ (nc aW i hi)).trans (vW i hi))
    (fun i hi => (o1 _ _ (nc aD i hi)).trans (vD i hi)) (fun i hi => (o1 _ _ (nc aP i hi)).trans (vP i hi))
  refine ⟨M2, by unfold fSolveVec; rw [e1, Res.ok_bind, e2], (o1.trans o2).mono cr, fun i hi => ?_⟩
  exact v2 i hi

/-- The solver for the columns of a matrix. -/
theorem fSolveMat_spec {sz : Arr → ℕ} {Y W D phi Z : DPtr} {n m : ℕ} {a1 : ℝ} {M : Mem} {w d ph : ℕ → ℝ} (hn : 0 < n)
    (iY : inside sz Y (n * m)) (iW : inside sz W n) (iD : inside sz D n) (iP : inside sz phi n) (iZ : inside sz Z (n * m))
    (aY : apart Y (n * m) Z (n * m)) (aW : apart W n Z (n * m)) (aD : apart D n Z (n * m)) (aP : apart phi n Z (n * m))
    (vW : ∀ i < n, M W.arr (W.off + i) = w i) (vD : ∀ i < n, M D.arr (D.off + i) = d i)
    (vP : ∀ i < n, M phi.arr (phi.off + i) = ph i) :
    ∃ M', fSolveMat sz Y W D phi n m a1 Z M = .ok M' ∧ Only (reg Z (n * m)) M M' ∧
      ∀ i < n, ∀ j < m, M' Z.arr (Z.off + (i * m + j)) =
        ssSolve (fun i => M Y.arr (Y.off + (i * m + j))) w d ph n a1 i := by
  have cr : ∀ j < m, ∀ A x, col Z (fun i => i * m + j) n A x → reg Z (n * m) A x := by
    rintro j hj A x ⟨h1, i, h2, h3⟩
    have := idx_lt h2 hj
    dsimp only at h3
    exact ⟨h1, by omega, by omega⟩
  have inn : ∀ {p : DPtr}, inside sz p n → ∀ i < n, p.off + i < sz p.arr := fun h i hi => by unfold inside at h; omega
  have inm : ∀ {p : DPtr}, inside sz p (n * m) → ∀ j < m, ∀ i < n, p.off + (i * m + j) < sz p.arr := fun h j hj i hi => by
    have := idx_lt hi hj; unfold inside at h; omega
  have nc : ∀ {p : DPtr}, apart p n Z (n * m) → ∀ j < m, ∀ i < n, ¬ col Z (fun i => i * m + j) n p.arr (p.off + i) :=
    fun h j hj i hi hc => not_reg_of_apart h hi (cr j hj _ _ hc)
  have ncY : ∀ j < m, ∀ i < n, ¬ col Z (fun i => i * m + j) n Y.arr (Y.off + (i * m + j)) :=
    fun j hj i hi hc => not_reg_of_apart aY (idx_lt hi hj) (cr j hj _ _ hc)
  have inj : ∀ j < m, ∀ i < n, ∀ i' < n, i * m + j = i' * m + j → i = i' := fun j hj i _ i' _ h => (idx_inj hj hj h).1
  have other : ∀ j < m, ∀ j' < m, j' ≠ j → ∀ i < n, ¬ col Z (fun i => i * m + j) n Z.arr (Z.off + (i * m + j')) := by
    rintro j hj j' hj' hne i hi ⟨-, i', hi', h⟩
    dsimp only at h
    have := idx_inj hj' hj (show i * m + j' = i' * m + j by omega)
    omega
  have kp : ∀ {M' : Mem}, Only (reg Z (n * m)) M M' → ∀ {p : DPtr} {v : ℕ → ℝ}, apart p n Z (n * m) →
      (∀ i < n, M p.arr (p.off + i) = v i) → ∀ i < n, M' p.arr (p.off + i) = v i :=
    fun o p v ha hv i hi => (o.out ha hi).trans (hv i hi)
  let F : ℕ → ℕ → ℝ := fun j i => (ssFwd (fun i => M Y.arr (Y.off + (i * m + j))) w ph a1 i).2
  obtain ⟨M1, e1, p1, p2⟩ := forD_inv (fun k M' => (∀ j < k, ∀ i < n, M' Z.arr (Z.off + (i * m + j)) = F j i) ∧
      Only (reg Z (n * m)) M M') m
    (fun j => fFwd sz Y (fun i => i * m + j) W phi n a1 Z (fun i => i * m + j)) M
    ⟨fun j hj => by omega, Only.refl _ _⟩ (by
      intro j hj M1 ⟨h1, h2⟩
      obtain ⟨M2, e2, o2, v2⟩ := fFwd_spec (a1 := a1) (M := M1) (y := fun i => M Y.arr (Y.off + (i * m + j))) hn
        (inm iY j hj) (inm iZ j hj) (inn iW) (inn iP) (inj j hj)
        (ncY j hj) (nc aW j hj) (nc aP j hj)
        (fun i hi => h2.out aY (idx_lt hi hj)) (kp h2 aW vW) (kp h2 aP vP)
      refine ⟨M2, e2, ?_, h2.trans (o2.mono (cr j hj))⟩
      intro j' hj' i hi
      by_cases h : j' = j
      · subst h; exact v2 i hi
      · rw [o2 _ _ (other j hj j' (by omega) h i hi), h1 j' (by omega) i hi])
  obtain ⟨M2, e2, q1, q2, q3⟩ := forD_inv (fun k M' =>
      (∀ j < k, ∀ i < n, M' Z.arr (Z.off + (i * m + j)) = (ssBack (F j) w d ph n a1 (n - 1 - i)).2) ∧
      (∀ j, k ≤ j → j < m → ∀ i < n, M' Z.arr (Z.off + (i * m + j)) = F j i) ∧
      Only (reg Z (n * m)) M M') m
    (fun j => fBack sz W D phi n a1 Z (fun i => i * m + j)) M1
    ⟨fun j hj => by omega, fun j _ hj => p1 j hj, p2⟩ (by
      intro j hj M3 ⟨h1, h2, h3⟩
      obtain ⟨M4, e4, o4, v4⟩ := fBack_spec (a1 := a1) (M := M3) hn
        (inm iZ j hj) (inn iW) (inn iD) (inn iP) (inj j hj)
        (nc aW j hj) (nc aD j hj) (nc aP j hj)
        (h2 j le_rfl hj) (kp h3 aW vW) (kp h3 aD vD) (kp h3 aP vP)
      refine ⟨M4, e4, ?_, ?_, h3.trans (o4.mono (cr j hj))⟩
      · intro j' hj' i hi
        by_cases h : j' = j
        · subst h; exact v4 i hi
        · rw [o4 _ _ (other j hj j' (by omega) h i hi), h1 j' (by omega) i hi]
      · intro j' hj' hjm i hi
        rw [o4 _ _ (other j hj j' hjm (by omega) i hi), h2 j' (by omega) hjm i hi])
  refine ⟨M2, by unfold fSolveMat; rw [e1, Res.ok_bind, e2], q3, fun i hi j hj => ?_⟩
  exact q1 j hj i hi

end Mica
