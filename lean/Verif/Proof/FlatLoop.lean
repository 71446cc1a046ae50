import Verif.Proof.FlatSemi
import Verif.Proof.FlatVec
import Verif.Model.FlatLine

/-! Loops that write final values. -/

namespace Mica

open Matrix

/-- Only the piece of `len` elements at `p` is changed, the elements in `S` of it get their final values `T`, and no final value
is destroyed. -/
def Step (p : DPtr) (len : ℕ) (T : ℕ → ℝ) (S : ℕ → Prop) (M M' : Mem) : Prop :=
  Only (reg p len) M M' ∧ Wr p T S M' ∧ ∀ x, M p.arr (p.off + x) = T x → M' p.arr (p.off + x) = T x

theorem Step.refl (p : DPtr) (len : ℕ) (T : ℕ → ℝ) (M : Mem) : Step p len T (fun _ => False) M M :=
  ⟨Only.refl _ _, fun _ h => h.elim, fun _ h => h⟩

theorem Step.trans {p : DPtr} {len : ℕ} {T : ℕ → ℝ} {S S' : ℕ → Prop} {M M' M'' : Mem} (h : Step p len T S M M')
    (h' : Step p len T S' M' M'') : Step p len T (fun x => S x ∨ S' x) M M'' :=
  ⟨h.1.trans h'.1, fun x hx => hx.elim (fun hx => h'.2.2 x (h.2.1 x hx)) (h'.2.1 x), fun x hx => h'.2.2 x (h.2.2 x hx)⟩

theorem Step.mono {p : DPtr} {len : ℕ} {T : ℕ → ℝ} {S S' : ℕ → Prop} {M M' : Mem} (h : Step p len T S M M')
    (hs : ∀ x, S' x → S x) : Step p len T S' M M' := ⟨h.1, h.2.1.mono hs, h.2.2⟩

theorem Step.upd (M : Mem) {p : DPtr} {len y : ℕ} (T : ℕ → ℝ) (hy : y < len) :
    Step p len T (fun x => x = y) M (upd M p y (T y)) := by
  refine ⟨only_upd_reg _ _ _ hy, ?_, ?_⟩
  · rintro x rfl
    rw [upd_same]
  · intro x hx
    by_cases e : x = y
    · subst e; rw [upd_same]
    · rw [upd_ne (.inr (by omega)), hx]

/-- Writing a whole piece anew. -/
theorem Step.of_piece {p : DPtr} {len a c : ℕ} {T : ℕ → ℝ} {M M' : Mem} (hc : a + c ≤ len)
    (h1 : Only (reg (p.plus a) c) M M') (h2 : ∀ x < c, M' p.arr (p.off + (a + x)) = T (a + x)) :
    Step p len T (fun x => a ≤ x ∧ x < a + c) M M' := by
  refine ⟨h1.mono ?_, ?_, ?_⟩
  · rintro A x ⟨e1, e2, e3⟩
    simp only [DPtr.plus] at e1 e2 e3
    exact ⟨e1, by omega, by omega⟩
  · intro x ⟨g1, g2⟩
    have := h2 (x - a) (by omega)
    rwa [Nat.add_sub_cancel' g1] at this
  · intro x hx
    by_cases g : a ≤ x ∧ x < a + c
    · have := h2 (x - a) (by omega)
      rwa [Nat.add_sub_cancel' g.1] at this
    · rw [h1 _ _ ?_, hx]
      rintro ⟨-, e2, e3⟩
      simp only [DPtr.plus] at e2 e3
      omega

theorem forD_step {p : DPtr} {len : ℕ} {T : ℕ → ℝ} (S : ℕ → ℕ → Prop) (n : ℕ) (body : ℕ → Mem → Res Mem) (M : Mem)
    (h : ∀ i < n, ∀ M', Step p len T (fun x => ∃ k < i, S k x) M M' → ∃ M'', body i M' = .ok M'' ∧ Step p len T (S i) M' M'') :
    ∃ M', forD n body M = .ok M' ∧ Step p len T (fun x => ∃ i < n, S i x) M M' := by
  obtain ⟨M', e, g⟩ := forD_inv (fun i M' => Step p len T (fun x => ∃ k < i, S k x) M M') n body M
    ((Step.refl p len T M).mono (by rintro x ⟨k, hk, -⟩; omega)) (by
      intro i hi M1 h1
      obtain ⟨M2, e2, h2⟩ := h i hi M1 h1
      refine ⟨M2, e2, (h1.trans h2).mono ?_⟩
      rintro x ⟨k, hk, hx⟩
      by_cases e : k = i
      · subst e; exact .inr hx
      · exact .inl ⟨k, by omega, hx⟩)
  exact ⟨M', e, g⟩

/-- A loop that writes one final value per pass. -/
theorem forD_write {sz : Arr → ℕ} {p : DPtr} {len : ℕ} {T : ℕ → ℝ} (ad : ℕ → ℕ) (n : ℕ) (rd : ℕ → Mem → Res ℝ) (M : Mem)
    (hi : inside sz p len) (ha : ∀ i < n, ad i < len)
    (h : ∀ i < n, ∀ M', Step p len T (fun x => ∃ k < i, x = ad k) M M' → rd i M' = .ok (T (ad i))) :
    ∃ M', forD n (fun i M => rd i M >>= fun v => std sz p (ad i) v M) M = .ok M' ∧
      Step p len T (fun x => ∃ i < n, x = ad i) M M' := by
  refine forD_step (fun i x => x = ad i) n _ M fun i hin M' hM => ?_
  rw [h i hin M' hM, Res.ok_bind, std_ok _ (by have := ha i hin; unfold inside at hi; omega)]
  exact ⟨_, rfl, Step.upd _ _ (ha i hin)⟩

/-- The same with values known in advance. -/
theorem forD_const {sz : Arr → ℕ} {p : DPtr} {len : ℕ} {T : ℕ → ℝ} (ad : ℕ → ℕ) (n : ℕ) (v : ℕ → ℝ) (M : Mem)
    (hi : inside sz p len) (ha : ∀ i < n, ad i < len) (h : ∀ i < n, v i = T (ad i)) :
    ∃ M', forD n (fun i => std sz p (ad i) (v i)) M = .ok M' ∧ Step p len T (fun x => ∃ i < n, x = ad i) M M' := by
  refine forD_step (fun i x => x = ad i) n _ M fun i hin M' hM => ?_
  rw [h i hin, std_ok _ (by have := ha i hin; unfold inside at hi; omega)]
  exact ⟨_, rfl, Step.upd _ _ (ha i hin)⟩

/-- `fTake` copies the block. -/
theorem fTake_spec {sz : Arr → ℕ} {src dst : DPtr} {ad : ℕ → ℕ → ℕ} {r c ls : ℕ} {M : Mem} (hd : inside sz dst (r * c))
    (hs : inside sz src ls) (ha : ∀ i < r, ∀ j < c, ad i j < ls) (hap : apart src ls dst (r * c)) :
    ∃ M', fTake sz src ad dst r c M = .ok M' ∧ Only (reg dst (r * c)) M M' ∧
      matAt M' dst r c = fun (i : Fin r) (j : Fin c) => M src.arr (src.off + ad i j) := by
  unfold fTake
  let T : ℕ → ℝ := fun x => M src.arr (src.off + ad (x / c) (x % c))
  obtain ⟨M', e, g⟩ := forD_step (p := dst) (len := r * c) (T := T) (fun i x => ∃ j < c, x = i * c + j) r
    (fun i => forD c fun j M => ldd sz src (ad i j) M >>= fun v => std sz dst (i * c + j) v M) M (by
      intro i hi M1 h1
      refine forD_write (fun j => i * c + j) c (fun j M => ldd sz src (ad i j) M) M1 hd (fun j hj => idx_lt hi hj) ?_
      intro j hj M2 h2
      have b : src.off + ad i j < sz src.arr := by have := ha i hi j hj; unfold inside at hs; omega
      rw [ldd_ok _ b, (h1.1.trans h2.1).out hap (ha i hi j hj)]
      simp only [T, idx_div hj, idx_mod hj])
  refine ⟨M', e, g.1, ?_⟩
  ext i j
  have := g.2.1 (i * c + j) ⟨i, i.2, j, j.2, rfl⟩
  show M' dst.arr _ = _
  rw [this]
  simp only [T, idx_div j.2, idx_mod j.2]

/-- `fPut` puts the blocks together. -/
theorem fPut_spec {sz : Arr → ℕ} {Ai ANi QNi SNi : DPtr} {ni nq : ℕ} {M : Mem}
    (hA : inside sz Ai ((ni + nq) * (ni + nq))) (h1 : inside sz ANi (ni * ni)) (h2 : inside sz QNi (ni * nq))
    (h3 : inside sz SNi (nq * nq)) (d1 : apart ANi (ni * ni) Ai ((ni + nq) * (ni + nq)))
    (d2 : apart QNi (ni * nq) Ai ((ni + nq) * (ni + nq))) (d3 : apart SNi (nq * nq) Ai ((ni + nq) * (ni + nq))) :
    ∃ M', fPut sz Ai ANi QNi SNi ni nq M = .ok M' ∧ Only (reg Ai ((ni + nq) * (ni + nq))) M M' ∧
      matAt M' Ai (ni + nq) (ni + nq) = block (assemble (matAt M ANi ni ni) (matAt M QNi ni nq) (matAt M SNi nq nq))
        0 (ni + nq) 0 (ni + nq) := by
  unfold fPut
  set len := (ni + nq) * (ni + nq) with hlen
  let F := assemble (matAt M ANi ni ni) (matAt M QNi ni nq) (matAt M SNi nq nq)
  let T : ℕ → ℝ := fun x => F (x / (ni + nq)) (x % (ni + nq))
  have hT : ∀ i j, j < ni + nq → T (i * (ni + nq) + j) = F i j := by
    intro i j hj
    simp only [T, idx_div hj, idx_mod hj]
  have FA : ∀ i (hi : i < ni) j (hj : j < ni), F i j = M ANi.arr (ANi.off + (i * ni + j)) := by
    intro i hi j hj
    simp [F, assemble, hi, hj, matAt]
  have FQ : ∀ i (hi : i < ni) j (hj : j < nq), F i (ni + j) = M QNi.arr (QNi.off + (i * nq + j)) := by
    intro i hi j hj
    simp [F, assemble, hi, hj, matAt]
  have FQ' : ∀ i (hi : i < ni) j (hj : j < nq), F (ni + j) i = M QNi.arr (QNi.off + (i * nq + j)) := by
    intro i hi j hj
    simp [F, assemble, hi, hj, matAt]
  have FS : ∀ i (hi : i < nq) j (hj : j < nq), F (ni + i) (ni + j) = M SNi.arr (SNi.off + (i * nq + j)) := by
    intro i hi j hj
    simp [F, assemble, hi, hj, matAt]
  obtain ⟨M1, e1, g1⟩ := forD_step (p := Ai) (len := len) (T := T)
    (fun i x => (∃ j < ni, x = i * (ni + nq) + j) ∨ ∃ j < nq, (x = (ni + j) * (ni + nq) + i ∨ x = i * (ni + nq) + (ni + j))) ni
    (fun i M =>
      forD ni (fun j M => ldd sz ANi (i * ni + j) M >>= fun v => std sz Ai (i * (ni + nq) + j) v M) M >>=
      forD nq (fun j M =>
        ldd sz QNi (i * nq + j) M >>= fun v =>
        std sz Ai ((ni + j) * (ni + nq) + i) v M >>= fun M =>
        ldd sz Ai ((ni + j) * (ni + nq) + i) M >>= fun v => std sz Ai (i * (ni + nq) + (ni + j)) v M)) M (by
      intro i hi M1 k1
      obtain ⟨M2, e2, k2⟩ := forD_write (sz := sz) (p := Ai) (len := len) (T := T) (fun j => i * (ni + nq) + j) ni
        (fun j M => ldd sz ANi (i * ni + j) M) M1 hA (fun j hj => idx_lt (by omega) (by omega)) (by
          intro j hj M2 k2
          have l := idx_lt hi hj
          rw [ldd_ok _ (by unfold inside at h1; omega), (k1.1.trans k2.1).out d1 l, hT _ _ (by omega), FA i hi j hj])
      obtain ⟨M3, e3, k3⟩ := forD_step (p := Ai) (len := len) (T := T)
        (fun j x => x = (ni + j) * (ni + nq) + i ∨ x = i * (ni + nq) + (ni + j)) nq
        (fun j M =>
          ldd sz QNi (i * nq + j) M >>= fun v =>
          std sz Ai ((ni + j) * (ni + nq) + i) v M >>= fun M =>
          ldd sz Ai ((ni + j) * (ni + nq) + i) M >>= fun v => std sz Ai (i * (ni + nq) + (ni + j)) v M) M2 (by
          intro j hj M3 k3
          have l := idx_lt hi hj
          have a1 : (ni + j) * (ni + nq) + i < len := idx_lt (by omega) (by omega)
          have a2 : i * (ni + nq) + (ni + j) < len := idx_lt (by omega) (by omega)
          unfold inside at hA h2
          rw [ldd_ok _ (by omega), Res.ok_bind, ((k1.1.trans k2.1).trans k3.1).out d2 l, std_ok _ (by omega), Res.ok_bind,
            ldd_ok _ (by omega), Res.ok_bind, upd_same, std_ok _ (by omega)]
          have t1 : T ((ni + j) * (ni + nq) + i) = M QNi.arr (QNi.off + (i * nq + j)) := by rw [hT _ _ (by omega), FQ' i hi j hj]
          have t2 : T (i * (ni + nq) + (ni + j)) = M QNi.arr (QNi.off + (i * nq + j)) := by rw [hT _ _ (by omega), FQ i hi j hj]
          have s1 := Step.upd (p := Ai) M3 T a1
          have s2 := s1.trans (Step.upd (p := Ai) _ T a2)
          rw [t1, t2] at s2
          exact ⟨_, rfl, s2⟩)
      rw [e2, Res.ok_bind, e3]
      exact ⟨M3, rfl, k2.trans k3⟩)
  obtain ⟨M2, e2, g2⟩ := forD_step (p := Ai) (len := len) (T := T)
    (fun i x => ∃ j < nq, x = (ni + i) * (ni + nq) + (ni + j)) nq
    (fun i => forD nq fun j M => ldd sz SNi (i * nq + j) M >>= fun v => std sz Ai ((ni + i) * (ni + nq) + (ni + j)) v M) M1 (by
      intro i hi M2 k2
      refine forD_write (fun j => (ni + i) * (ni + nq) + (ni + j)) nq (fun j M => ldd sz SNi (i * nq + j) M) M2 hA
        (fun j hj => idx_lt (by omega) (by omega)) ?_
      intro j hj M3 k3
      have l := idx_lt hi hj
      rw [ldd_ok _ (by unfold inside at h3; omega), ((g1.1.trans k2.1).trans k3.1).out d3 l, hT _ _ (by omega), FS i hi j hj])
  rw [e1, Res.ok_bind, e2]
  have g := g1.trans g2
  refine ⟨M2, rfl, g.1, ?_⟩
  ext i j
  show M2 Ai.arr (Ai.off + _) = F (0 + i) (0 + j)
  rw [g.2.1 (i * (ni + nq) + j) ?_, hT _ _ j.2, Nat.zero_add, Nat.zero_add]
  by_cases hi : (i : ℕ) < ni
  · left
    refine ⟨i, hi, ?_⟩
    by_cases hj : (j : ℕ) < ni
    · exact .inl ⟨j, hj, rfl⟩
    · exact .inr ⟨j - ni, by omega, .inr (by congr 1; omega)⟩
  · by_cases hj : (j : ℕ) < ni
    · left
      refine ⟨j, hj, .inr ⟨i - ni, by omega, .inl ?_⟩⟩
      rw [show ni + ((i : ℕ) - ni) = i by omega]
    · right
      refine ⟨i - ni, by omega, j - ni, by omega, ?_⟩
      rw [show ni + ((i : ℕ) - ni) = i by omega, show ni + ((j : ℕ) - ni) = j by omega]

end Mica
