import Verif.Spec.Flat
import Mathlib.Algebra.BigOperators.Fin

/-! Lemmas about the memory machine of `Model/Flat.lean`. -/

namespace Mica

open Matrix

theorem forD_inv {σ : Type} (P : ℕ → σ → Prop) (n : ℕ) (body : ℕ → σ → Res σ) (s : σ) (h0 : P 0 s)
    (hs : ∀ i < n, ∀ s, P i s → ∃ s', body i s = .ok s' ∧ P (i + 1) s') :
    ∃ s', forD n body s = .ok s' ∧ P n s' := by
  induction n with
  | zero => exact ⟨s, rfl, h0⟩
  | succ n ih =>
    obtain ⟨s1, e1, p1⟩ := ih fun i hi => hs i (by omega)
    obtain ⟨s2, e2, p2⟩ := hs n (by omega) s1 p1
    exact ⟨s2, by simp [forD, e1, e2], p2⟩

theorem Only.refl (R : Arr → ℕ → Prop) (M : Mem) : Only R M M := fun _ _ _ => rfl

theorem Only.trans {R : Arr → ℕ → Prop} {M M' M'' : Mem} (h : Only R M M') (h' : Only R M' M'') : Only R M M'' :=
  fun A x hx => (h' A x hx).trans (h A x hx)

theorem Only.mono {R S : Arr → ℕ → Prop} {M M' : Mem} (h : Only R M M') (hs : ∀ A x, R A x → S A x) : Only S M M' :=
  fun A x hx => h A x fun hr => hx (hs A x hr)

theorem ldd_ok {sz : Arr → ℕ} {p : DPtr} {i : ℕ} (M : Mem) (h : p.off + i < sz p.arr) :
    ldd sz p i M = .ok (M p.arr (p.off + i)) := by simp [ldd, h]

/-- Memory after a write. -/
def upd (M : Mem) (p : DPtr) (i : ℕ) (v : ℝ) : Mem := fun a x => if a = p.arr ∧ x = p.off + i then v else M a x

theorem std_ok {sz : Arr → ℕ} {p : DPtr} {i : ℕ} {v : ℝ} (M : Mem) (h : p.off + i < sz p.arr) :
    std sz p i v M = .ok (upd M p i v) := by unfold std; rw [if_pos h]; rfl

@[simp] theorem upd_same (M : Mem) (p : DPtr) (i : ℕ) (v : ℝ) : upd M p i v p.arr (p.off + i) = v := by simp [upd]

theorem upd_ne {M : Mem} {p : DPtr} {i : ℕ} {v : ℝ} {A : Arr} {x : ℕ} (h : A ≠ p.arr ∨ x ≠ p.off + i) :
    upd M p i v A x = M A x := by
  unfold upd
  rw [if_neg]
  rintro ⟨h1, h2⟩
  rcases h with h | h
  · exact h h1
  · exact h h2

theorem only_upd (M : Mem) (p : DPtr) (i : ℕ) (v : ℝ) : Only (fun A x => A = p.arr ∧ x = p.off + i) M (upd M p i v) := by
  intro A x hx
  unfold upd
  rw [if_neg hx]

/-- A piece apart from the one that changed has its old content. -/
theorem Only.out {p q : DPtr} {l r : ℕ} {M M' : Mem} (h : Only (reg p l) M M') (ha : apart q r p l) {x : ℕ}
    (hx : x < r) : M' q.arr (q.off + x) = M q.arr (q.off + x) := by
  apply h
  rintro ⟨h1, h2, h3⟩
  rcases ha with ha | ha | ha
  · exact ha h1
  · omega
  · omega

theorem idx_lt {i j r c : ℕ} (hi : i < r) (hj : j < c) : i * c + j < r * c := by
  have : (i + 1) * c ≤ r * c := Nat.mul_le_mul_right c hi
  rw [Nat.add_mul] at this; omega

theorem idx_inj {i j i' j' c : ℕ} (hj : j < c) (hj' : j' < c) (h : i * c + j = i' * c + j') : i = i' ∧ j = j' := by
  have hc : 0 < c := by omega
  have h1 : (i * c + j) / c = i := by rw [Nat.mul_comm, Nat.mul_add_div hc, Nat.div_eq_of_lt hj]; omega
  have h2 : (i' * c + j') / c = i' := by rw [Nat.mul_comm, Nat.mul_add_div hc, Nat.div_eq_of_lt hj']; omega
  have h3 : i = i' := by rw [← h1, ← h2, h]
  subst h3
  exact ⟨rfl, by omega⟩

theorem idx_div {i j c : ℕ} (hj : j < c) : (i * c + j) / c = i := by
  rw [Nat.mul_comm, Nat.mul_add_div (by omega), Nat.div_eq_of_lt hj]; omega

theorem idx_mod {i j c : ℕ} (hj : j < c) : (i * c + j) % c = j := by
  rw [Nat.mul_comm, Nat.mul_add_mod, Nat.mod_eq_of_lt hj]

theorem Only.mat {p q : DPtr} {l r c : ℕ} {M M' : Mem} (h : Only (reg p l) M M') (ha : apart q (r * c) p l) :
    matAt M' q r c = matAt M q r c := by
  ext i j
  exact h.out ha (idx_lt i.2 j.2)

theorem Only.vec {p q : DPtr} {l r : ℕ} {M M' : Mem} (h : Only (reg p l) M M') (ha : apart q r p l) :
    vecAt M' q r = vecAt M q r := by
  ext i
  exact h.out ha i.2

theorem extent_tight {r c : ℕ} : extent r c c = r * c := by
  unfold extent
  split
  · simp [*]
  · rw [← Nat.succ_mul]; congr 1; omega

/-- The product helpers: every element of the result. -/
theorem dgemm_tight {sz : Arr → ℕ} {ta tb : Bool} {m n k : ℕ} {alpha beta : ℝ} {a b c : DPtr} {M : Mem}
    (hm : 0 < m) (hn : 0 < n) (hk : 0 < k)
    (ia : inside sz a (m * k)) (ib : inside sz b (k * n)) (ic : inside sz c (m * n))
    (da : apart c (m * n) a (m * k)) (db : apart c (m * n) b (k * n)) :
    ∃ M', dgemm sz ta tb m n k alpha a (if ta then m else k) b (if tb then k else n) beta c n M = .ok M' ∧
      Only (reg c (m * n)) M M' ∧
      ∀ i < m, ∀ j < n, M' c.arr (c.off + (i * n + j)) =
        alpha * (∑ l ∈ Finset.range k, M a.arr (a.off + (if ta then l * m + i else i * k + l)) *
          M b.arr (b.off + (if tb then j * k + l else l * n + j))) + beta * M c.arr (c.off + (i * n + j)) := by
  have hld : ¬ ((if ta then m else k) < max 1 (if ta then m else k) ∨ (if tb then k else n) < max 1 (if tb then k else n) ∨
      n < max 1 n) := by
    split <;> split <;> omega
  have e1 : extent (if ta then k else m) (if ta then m else k) (if ta then m else k) = m * k := by
    rw [extent_tight]; split
    · rw [Nat.mul_comm]
    · rfl
  have e2 : extent (if tb then n else k) (if tb then k else n) (if tb then k else n) = k * n := by
    rw [extent_tight]; split
    · rw [Nat.mul_comm]
    · rfl
  have e3 : extent m n n = m * n := extent_tight
  unfold dgemm
  simp only [hld, e1, e2, e3, ia, ib, ic, da, db, and_self, not_true_eq_false, if_false]
  refine ⟨_, rfl, ?_, ?_⟩
  · intro A x hx
    beta_reduce
    rw [if_neg]
    rintro ⟨h1, h2, h3, h4⟩
    refine hx ⟨h1, h2, ?_⟩
    have := Nat.div_add_mod (x - c.off) n
    have h5 := idx_lt h3 h4
    have : (x - c.off) / n * n + (x - c.off) % n = x - c.off := by rw [Nat.mul_comm]; exact this
    omega
  · intro i hi j hj
    have hx : c.off + (i * n + j) - c.off = i * n + j := by omega
    rw [if_pos (by rw [hx, idx_div hj, idx_mod hj]; exact ⟨rfl, by omega, hi, hj⟩)]
    rw [hx, idx_div hj, idx_mod hj]
    congr 1
    · congr 1
      apply Finset.sum_congr rfl
      intro l _
      cases ta <;> cases tb <;> rfl
    · split
      · rename_i h; simp [h]
      · rfl

theorem dgemv_tight {sz : Arr → ℕ} {ta : Bool} {m n : ℕ} {alpha beta : ℝ} {a x y : DPtr} {M : Mem}
    (hn : 0 < n)
    (ia : inside sz a (m * n)) (ix : inside sz x (if ta then m else n)) (iy : inside sz y (if ta then n else m))
    (da : apart y (if ta then n else m) a (m * n)) (dx : apart y (if ta then n else m) x (if ta then m else n)) :
    ∃ M', dgemv sz ta m n alpha a n x beta y M = .ok M' ∧
      Only (reg y (if ta then n else m)) M M' ∧
      ∀ i < (if ta then n else m), M' y.arr (y.off + i) =
        alpha * (∑ l ∈ Finset.range (if ta then m else n), M a.arr (a.off + (if ta then l * n + i else i * n + l)) *
          M x.arr (x.off + l)) + beta * M y.arr (y.off + i) := by
  have hld : ¬ (n < max 1 n) := by omega
  unfold dgemv
  simp only [hld, extent_tight, ia, ix, iy, da, dx, and_self, not_true_eq_false, if_false]
  refine ⟨_, rfl, ?_, ?_⟩
  · intro A i hx
    beta_reduce
    rw [if_neg]
    rintro ⟨h1, h2, h3⟩
    exact hx ⟨h1, h2, h3⟩
  · intro i hi
    have hx : y.off + i - y.off = i := by omega
    rw [if_pos ⟨rfl, by omega, by omega⟩, hx]
    congr 1
    split
    · rename_i h; simp [h]
    · rfl

/-! Matrix forms -/

theorem fMN_spec {sz : Arr → ℕ} {a b c : DPtr} {m n k : ℕ} {M : Mem} (hm : 0 < m) (hn : 0 < n) (hk : 0 < k)
    (ia : inside sz a (m * k)) (ib : inside sz b (k * n)) (ic : inside sz c (m * n))
    (da : apart c (m * n) a (m * k)) (db : apart c (m * n) b (k * n)) {alpha beta : ℝ} :
    ∃ M', fMNab sz a b c m n k alpha beta M = .ok M' ∧ Only (reg c (m * n)) M M' ∧
      matAt M' c m n = alpha • (matAt M a m k * matAt M b k n) + beta • matAt M c m n := by
  obtain ⟨M', e, o, h⟩ := dgemm_tight (ta := false) (tb := false) (alpha := alpha) (beta := beta) (M := M) hm hn hk ia ib ic da db
  refine ⟨M', e, o, ?_⟩
  ext i j
  simp only [matAt, Matrix.add_apply, Matrix.smul_apply, Matrix.mul_apply, smul_eq_mul]
  rw [h i i.2 j j.2, Finset.sum_range]
  simp

theorem fMNTA_spec {sz : Arr → ℕ} {a b c : DPtr} {m n k : ℕ} {M : Mem} (hm : 0 < m) (hn : 0 < n) (hk : 0 < k)
    (ia : inside sz a (m * k)) (ib : inside sz b (k * n)) (ic : inside sz c (m * n))
    (da : apart c (m * n) a (m * k)) (db : apart c (m * n) b (k * n)) {alpha beta : ℝ} :
    ∃ M', fMNTAab sz a b c m n k alpha beta M = .ok M' ∧ Only (reg c (m * n)) M M' ∧
      matAt M' c m n = alpha • ((matAt M a k m)ᵀ * matAt M b k n) + beta • matAt M c m n := by
  obtain ⟨M', e, o, h⟩ := dgemm_tight (ta := true) (tb := false) (alpha := alpha) (beta := beta) (M := M) hm hn hk ia ib ic da db
  refine ⟨M', e, o, ?_⟩
  ext i j
  simp only [matAt, Matrix.add_apply, Matrix.smul_apply, Matrix.mul_apply, smul_eq_mul, Matrix.transpose_apply]
  rw [h i i.2 j j.2, Finset.sum_range]
  simp

theorem fMNTB_spec {sz : Arr → ℕ} {a b c : DPtr} {m n k : ℕ} {M : Mem} (hm : 0 < m) (hn : 0 < n) (hk : 0 < k)
    (ia : inside sz a (m * k)) (ib : inside sz b (k * n)) (ic : inside sz c (m * n))
    (da : apart c (m * n) a (m * k)) (db : apart c (m * n) b (k * n)) {alpha beta : ℝ} :
    ∃ M', fMNTBab sz a b c m n k alpha beta M = .ok M' ∧ Only (reg c (m * n)) M M' ∧
      matAt M' c m n = alpha • (matAt M a m k * (matAt M b n k)ᵀ) + beta • matAt M c m n := by
  obtain ⟨M', e, o, h⟩ := dgemm_tight (ta := false) (tb := true) (alpha := alpha) (beta := beta) (M := M) hm hn hk ia ib ic da db
  refine ⟨M', e, o, ?_⟩
  ext i j
  simp only [matAt, Matrix.add_apply, Matrix.smul_apply, Matrix.mul_apply, smul_eq_mul, Matrix.transpose_apply]
  rw [h i i.2 j j.2, Finset.sum_range]
  simp

theorem fMatvec_spec {sz : Arr → ℕ} {a x y : DPtr} {m n : ℕ} {M : Mem} (hn : 0 < n)
    (ia : inside sz a (m * n)) (ix : inside sz x n) (iy : inside sz y m)
    (da : apart y m a (m * n)) (dx : apart y m x n) {alpha beta : ℝ} :
    ∃ M', fMatvecMNab sz a m n x y alpha beta M = .ok M' ∧ Only (reg y m) M M' ∧
      vecAt M' y m = alpha • (matAt M a m n).mulVec (vecAt M x n) + beta • vecAt M y m := by
  obtain ⟨M', e, o, h⟩ := dgemv_tight (ta := false) (alpha := alpha) (beta := beta) (M := M) (sz := sz) (a := a) (x := x) (y := y)
    (m := m) hn ia ix iy da dx
  refine ⟨M', e, o, ?_⟩
  ext i
  simp only [matAt, vecAt, Pi.add_apply, Pi.smul_apply, smul_eq_mul, Matrix.mulVec, dotProduct]
  rw [h i i.2, Finset.sum_range]
  simp

theorem fMatvecTA_spec {sz : Arr → ℕ} {a x y : DPtr} {m n : ℕ} {M : Mem} (hn : 0 < n)
    (ia : inside sz a (m * n)) (ix : inside sz x m) (iy : inside sz y n)
    (da : apart y n a (m * n)) (dx : apart y n x m) {alpha beta : ℝ} :
    ∃ M', fMatvecMNTAab sz a m n x y alpha beta M = .ok M' ∧ Only (reg y n) M M' ∧
      vecAt M' y n = alpha • (matAt M a m n)ᵀ.mulVec (vecAt M x m) + beta • vecAt M y n := by
  obtain ⟨M', e, o, h⟩ := dgemv_tight (ta := true) (alpha := alpha) (beta := beta) (M := M) (sz := sz) (a := a) (x := x) (y := y)
    (m := m) hn ia ix iy da dx
  refine ⟨M', e, o, ?_⟩
  ext i
  simp only [matAt, vecAt, Pi.add_apply, Pi.smul_apply, smul_eq_mul, Matrix.mulVec, dotProduct, Matrix.transpose_apply]
  rw [h i i.2, Finset.sum_range]
  simp

theorem copyD_spec {sz : Arr → ℕ} {dst src : DPtr} {n : ℕ} {M : Mem} (h1 : inside sz dst n) (h2 : inside sz src n)
    (h3 : apart dst n src n) :
    ∃ M', copyD sz dst src n M = .ok M' ∧ Only (reg dst n) M M' ∧ vecAt M' dst n = vecAt M src n := by
  unfold copyD
  rw [if_pos ⟨h1, h2, h3⟩]
  refine ⟨_, rfl, ?_, ?_⟩
  · intro A x hx
    exact if_neg hx
  · ext i
    have : dst.off + (i : ℕ) - dst.off = i := by omega
    have hi := i.2
    unfold vecAt
    beta_reduce
    rw [if_pos ⟨rfl, by omega, by omega⟩, this]

theorem ddot_spec {sz : Arr → ℕ} {n : ℕ} {x y : DPtr} {M : Mem} (h1 : inside sz x n) (h2 : inside sz y n) :
    ddot sz n x y M = .ok (vecAt M x n ⬝ᵥ vecAt M y n) := by
  unfold ddot
  rw [if_pos ⟨h1, h2⟩, Finset.sum_range]
  rfl

end Mica
