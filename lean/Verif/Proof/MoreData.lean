import Verif.Proof.Recon
import Verif.Proof.Reorder
import Verif.Props.Kernel

/-! Predictions from some of the data and from all of them. -/

namespace Mica

open Matrix

/-- Weights for some of the data as weights for all of them. -/
def pushW {n n' : ℕ} (g : Fin n' → Fin n) (w : Fin n' → ℝ) : Fin n → ℝ := fun k => ∑ p, if g p = k then w p else 0

theorem pushW_dot {n n' : ℕ} (g : Fin n' → Fin n) (w : Fin n' → ℝ) (v : Fin n → ℝ) :
    pushW g w ⬝ᵥ v = ∑ p, w p * v (g p) := by
  simp only [dotProduct, pushW, Finset.sum_mul]
  rw [Finset.sum_comm]
  refine Finset.sum_congr rfl fun p _ => ?_
  simp

/-- A best prediction from all data has no larger error than any unbiased one from some of them, known less well. -/
theorem predErr_more {n n' q q' : ℕ} {C : Matrix (Fin n) (Fin n) ℝ} {C' : Matrix (Fin n') (Fin n') ℝ}
    {L : Matrix (Fin n) (Fin q) ℝ} {L' : Matrix (Fin n') (Fin q') ℝ} {s : Fin n → ℝ} {s' : Fin n' → ℝ} {l : Fin q → ℝ}
    {l' : Fin q' → ℝ} {a : ℝ} {w : Fin n → ℝ} {w' : Fin n' → ℝ} (g : Fin n' → Fin n) (δ : Fin n' → ℝ)
    (hδ : ∀ p, 0 ≤ δ p) (hC : ∀ p r, C' p r = C (g p) (g r) + if p = r then δ p else 0) (hq : q' = q)
    (hL : ∀ p c, L' p c = L (g p) (Fin.cast hq c)) (hl : ∀ c, l' c = l (Fin.cast hq c)) (hs : ∀ p, s' p = s (g p))
    (hw : IsBlup C L s l a w) (hw' : ∀ p, w' ⬝ᵥ L'.mulVec p = l' ⬝ᵥ p) : predErr C s a w ≤ predErr C' s' a w' := by
  subst hq
  simp only [Fin.cast_eq_self] at hL hl
  obtain rfl : l' = l := funext hl
  have h1 : ∀ p, pushW g w' ⬝ᵥ L.mulVec p = l' ⬝ᵥ p := by
    intro p
    rw [pushW_dot, ← hw' p]
    refine Finset.sum_congr rfl fun r _ => ?_
    simp only [Matrix.mulVec, dotProduct, hL]
  have h2 : predErr C s a w ≤ predErr C s a (pushW g w') := by
    by_cases he : pushW g w' = w
    · rw [he]
    · exact (hw.2 _ h1 he).le
  refine h2.trans ?_
  unfold predErr
  have e1 : pushW g w' ⬝ᵥ s = w' ⬝ᵥ s' := by
    rw [pushW_dot]
    exact Finset.sum_congr rfl fun r _ => by rw [hs]
  have e2 : w' ⬝ᵥ C'.mulVec w' = pushW g w' ⬝ᵥ C.mulVec (pushW g w') + ∑ p, δ p * w' p ^ 2 := by
    rw [pushW_dot, ← Finset.sum_add_distrib]
    refine Finset.sum_congr rfl fun p _ => ?_
    have e3 : C.mulVec (pushW g w') (g p) = ∑ r, w' r * C (g p) (g r) := by
      rw [Matrix.mulVec, dotProduct_comm, pushW_dot]
    rw [e3]
    simp only [Matrix.mulVec, dotProduct, hC, add_mul, Finset.sum_add_distrib, ite_mul, zero_mul, Finset.sum_ite_eq,
      Finset.mem_univ, if_true, mul_add]
    congr 1
    · congr 1
      exact Finset.sum_congr rfl fun r _ => mul_comm _ _
    · ring
  rw [e1, e2]
  have : 0 ≤ ∑ p, δ p * w' p ^ 2 := Finset.sum_nonneg fun p _ => mul_nonneg (hδ p) (sq_nonneg _)
  linarith

theorem cSqrt_mono {x y u v : ℝ} (h : x ≤ y) (hx : cSqrt x = some u) (hy : cSqrt y = some v) : u ≤ v := by
  unfold cSqrt at hx hy
  split at hx
  · exact absurd hx (by simp)
  split at hy
  · exact absurd hy (by simp)
  simp only [Option.some.injEq] at hx hy
  subst hx hy
  exact Real.sqrt_le_sqrt h

/-- All measurements in the light curves `l'` are also in `l`: measurement `i` of light curve `s` is there measurement
`ι s i`, with an error (`c s` times the mean error being the systematic one) that is not larger. -/
structure MoreData (l l' : List LC) (c : ℕ → ℝ) (ι : ℕ → ℕ → ℕ) : Prop where
  len : l'.length = l.length
  mono : ∀ s a', l'[s]? = some a' → ∀ i j, i < j → j < a'.n → ι s i < ι s j
  get : ∀ s a a', l[s]? = some a → l'[s]? = some a' → ∀ i < a'.n, ι s i < a.n ∧ a'.t i = a.t (ι s i) ∧
    a.fe (ι s i) ^ 2 + (c s * a.em) ^ 2 ≤ a'.fe i ^ 2 + (c s * a'.em) ^ 2

/-- The position of a measurement of `l'` among those of `l`. -/
def morePos (l l' : List LC) (ι : ℕ → ℕ → ℕ) (p : ℕ) : ℕ :=
  totalN (l.take (locate l' p).1) + ι (locate l' p).1 (locate l' p).2

section
variable {l l' : List LC} {c : ℕ → ℝ} {ι : ℕ → ℕ → ℕ} (h : MoreData l l' c ι)
include h

theorem MoreData.at {p : ℕ} (hp : p < totalN l') :
    ∃ a a', l[(locate l' p).1]? = some a ∧ l'[(locate l' p).1]? = some a' ∧ (locate l' p).2 < a'.n ∧
      ι (locate l' p).1 (locate l' p).2 < a.n ∧ a'.t (locate l' p).2 = a.t (ι (locate l' p).1 (locate l' p).2) ∧
      a.fe (ι (locate l' p).1 (locate l' p).2) ^ 2 + (c (locate l' p).1 * a.em) ^ 2 ≤
        a'.fe (locate l' p).2 ^ 2 + (c (locate l' p).1 * a'.em) ^ 2 := by
  obtain ⟨a', ha', hi⟩ := locate_valid l' p hp
  have h1 : (locate l' p).1 < l.length := by
    have := (List.getElem?_eq_some_iff.1 ha').1
    rwa [h.len] at this
  refine ⟨l[(locate l' p).1], a', List.getElem?_eq_getElem h1, ha', hi, ?_⟩
  exact h.get _ _ _ (List.getElem?_eq_getElem h1) ha' _ hi

theorem MoreData.pos_lt {p : ℕ} (hp : p < totalN l') : morePos l l' ι p < totalN l := by
  obtain ⟨a, a', ha, _, _, h1, _⟩ := h.at hp
  exact (locate_place l ha h1).1

theorem MoreData.locate {p : ℕ} (hp : p < totalN l') :
    Mica.locate l (morePos l l' ι p) = ((Mica.locate l' p).1, ι (Mica.locate l' p).1 (Mica.locate l' p).2) := by
  obtain ⟨a, a', ha, _, _, h1, _⟩ := h.at hp
  exact (locate_place l ha h1).2

theorem MoreData.le_iff {p r : ℕ} (hp : p < totalN l') (hr : r < totalN l') (he : (Mica.locate l' p).1 = (Mica.locate l' r).1) :
    ι (Mica.locate l' r).1 (Mica.locate l' r).2 ≤ ι (Mica.locate l' p).1 (Mica.locate l' p).2 ↔
      (Mica.locate l' r).2 ≤ (Mica.locate l' p).2 := by
  obtain ⟨_, a', _, ha', h1, _⟩ := h.at hp
  obtain ⟨_, b', _, hb', h2, _⟩ := h.at hr
  rw [he] at ha' ⊢
  obtain rfl : a' = b' := by rw [ha'] at hb'; exact Option.some.inj hb'
  rcases lt_trichotomy (Mica.locate l' r).2 (Mica.locate l' p).2 with h3 | h3 | h3
  · have := h.mono _ _ ha' _ _ h3 h1; omega
  · rw [h3]; simp
  · have := h.mono _ _ ha' _ _ h3 h2; omega

theorem MoreData.enough {nq : ℕ} (hL : ∀ a ∈ l', EnoughTimes a nq) : ∀ a ∈ l, EnoughTimes a nq := by
  intro a ha
  obtain ⟨s, hs, rfl⟩ := List.getElem_of_mem ha
  have hs' : s < l'.length := by rw [h.len]; exact hs
  obtain ⟨e, he⟩ := hL _ (List.getElem_mem hs')
  have hg := h.get s _ _ (List.getElem?_eq_getElem hs) (List.getElem?_eq_getElem hs')
  refine ⟨fun k => ⟨ι s (e k), (hg _ (e k).2).1⟩, fun a b hab => he ?_⟩
  simp only at hab ⊢
  rwa [(hg _ (e a).2).2.1, (hg _ (e b).2).2.1]

theorem MoreData.pos_inj {p r : ℕ} (hp : p < totalN l') (hr : r < totalN l') (he : morePos l l' ι p = morePos l l' ι r) :
    p = r := by
  have e1 := h.locate hp
  rw [he, h.locate hr, Prod.mk.injEq] at e1
  have h1 := (h.le_iff hp hr e1.1.symm).1 e1.2.le
  have h2 := (h.le_iff hr hp e1.1).1 e1.2.ge
  exact locate_inj l' p r hp hr (Prod.ext e1.1.symm (le_antisymm h2 h1))

end

end Mica
