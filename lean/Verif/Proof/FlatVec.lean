import Verif.Proof.Flat

/-! Writing final values, and `multiply_vec2mat` on memory. -/

namespace Mica

open Matrix

/-- The elements in `S` of the piece at `p` hold their final values `T`. -/
def Wr (p : DPtr) (T : ℕ → ℝ) (S : ℕ → Prop) (M : Mem) : Prop := ∀ x, S x → M p.arr (p.off + x) = T x

theorem Wr.upd {p : DPtr} {T : ℕ → ℝ} {S : ℕ → Prop} {M : Mem} (h : Wr p T S M) (y : ℕ) :
    Wr p T (fun x => S x ∨ x = y) (upd M p y (T y)) := by
  intro x hx
  by_cases e : x = y
  · subst e; rw [upd_same]
  · rw [upd_ne (.inr (by omega))]
    rcases hx with hx | hx
    · exact h x hx
    · exact absurd hx e

theorem Wr.mono {p : DPtr} {T : ℕ → ℝ} {S S' : ℕ → Prop} {M : Mem} (h : Wr p T S M) (hs : ∀ x, S' x → S x) : Wr p T S' M :=
  fun x hx => h x (hs x hx)

theorem only_upd_reg (M : Mem) (p : DPtr) {i l : ℕ} (v : ℝ) (hi : i < l) : Only (reg p l) M (upd M p i v) :=
  (only_upd M p i v).mono fun _ _ ⟨h1, h2⟩ => ⟨h1, by omega, by omega⟩

theorem fVec2mat_spec {sz : Arr → ℕ} {x a : DPtr} {n : ℕ} {M : Mem} (ix : inside sz x n) (ia : inside sz a (n * n))
    (d : apart x n a (n * n)) :
    ∃ M', fVec2mat sz x a n M = .ok M' ∧ Only (reg a (n * n)) M M' ∧
      matAt M' a n n = Matrix.of fun i j => vecAt M x n i * vecAt M x n j := by
  unfold fVec2mat
  let T : ℕ → ℝ := fun y => M x.arr (x.off + y / n) * M x.arr (x.off + y % n)
  obtain ⟨M', e, h1, h2⟩ := forD_inv (fun i M' =>
      Wr a T (fun y => y < n * n ∧ y / n < i ∧ y % n < i) M' ∧ Only (reg a (n * n)) M M') n
    (fun i => forD (i + 1) fun j M =>
      ldd sz x i M >>= fun xi => ldd sz x j M >>= fun xj =>
      std sz a (j * n + i) (xi * xj) M >>= fun M =>
      ldd sz a (j * n + i) M >>= fun v => std sz a (i * n + j) v M) M
    ⟨fun y hy => by omega, Only.refl _ _⟩ (by
      intro i hi M1 ⟨h1, h2⟩
      obtain ⟨M2, e2, g1, g2⟩ := forD_inv (fun j M' =>
          Wr a T (fun y => y < n * n ∧ ((y / n < i ∧ y % n < i) ∨ (y / n = i ∧ y % n < j) ∨ (y % n = i ∧ y / n < j))) M' ∧
          Only (reg a (n * n)) M M') (i + 1)
        (fun j M =>
          ldd sz x i M >>= fun xi => ldd sz x j M >>= fun xj =>
          std sz a (j * n + i) (xi * xj) M >>= fun M =>
          ldd sz a (j * n + i) M >>= fun v => std sz a (i * n + j) v M) M1
        ⟨h1.mono fun y hy => ⟨hy.1, by
            rcases hy.2 with h | ⟨_, h⟩ | ⟨_, h⟩
            · exact h
            · exact absurd h (Nat.not_lt_zero _)
            · exact absurd h (Nat.not_lt_zero _)⟩, h2⟩ (by
          intro j hj M2 ⟨g1, g2⟩
          have hjn : j < n := by omega
          have b1 : x.off + i < sz x.arr := by unfold inside at ix; omega
          have b2 : x.off + j < sz x.arr := by unfold inside at ix; omega
          have l1 := idx_lt hjn hi
          have l2 := idx_lt hi hjn
          have b3 : a.off + (j * n + i) < sz a.arr := by unfold inside at ia; omega
          have b4 : a.off + (i * n + j) < sz a.arr := by unfold inside at ia; omega
          rw [ldd_ok _ b1, Res.ok_bind, ldd_ok _ b2, Res.ok_bind, std_ok _ b3, Res.ok_bind, ldd_ok _ b3, Res.ok_bind, std_ok _ b4,
            upd_same, g2.out d hi, g2.out d hjn]
          have t1 : M x.arr (x.off + i) * M x.arr (x.off + j) = T (j * n + i) := by
            simp only [T, idx_div hi, idx_mod hi]; rw [mul_comm]
          have t2 : M x.arr (x.off + i) * M x.arr (x.off + j) = T (i * n + j) := by
            simp only [T, idx_div hjn, idx_mod hjn]
          refine ⟨_, rfl, ?_, ?_⟩
          · rw [t1]
            have w1 := g1.upd (j * n + i)
            have w2 := w1.upd (i * n + j)
            rw [← t2, t1] at w2
            refine w2.mono ?_
            rintro y ⟨y1, y2⟩
            rcases y2 with y2 | ⟨y2, y3⟩ | ⟨y2, y3⟩
            · exact .inl (.inl ⟨y1, .inl y2⟩)
            · by_cases y4 : y % n = j
              · right; rw [← Nat.div_add_mod y n, y2, y4, Nat.mul_comm]
              · exact .inl (.inl ⟨y1, .inr (.inl ⟨y2, by omega⟩)⟩)
            · by_cases y4 : y / n = j
              · left; right; rw [← Nat.div_add_mod y n, y2, y4, Nat.mul_comm]
              · exact .inl (.inl ⟨y1, .inr (.inr ⟨y2, by omega⟩)⟩)
          · exact (g2.trans (only_upd_reg _ _ _ l1)).trans (only_upd_reg _ _ _ l2))
      refine ⟨M2, e2, g1.mono ?_, g2⟩
      rintro y ⟨y1, y2, y3⟩
      refine ⟨y1, ?_⟩
      omega)
  refine ⟨M', e, h2, ?_⟩
  ext i j
  have := h1 ((i : ℕ) * n + j) ⟨idx_lt i.2 j.2, by rw [idx_div j.2]; exact i.2, by rw [idx_mod j.2]; exact j.2⟩
  show M' a.arr _ = _
  rw [this]
  simp only [T, idx_div j.2, idx_mod j.2]
  rfl

end Mica
