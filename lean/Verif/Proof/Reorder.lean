import Verif.Props.TimeOrigin
import Mathlib.LinearAlgebra.Matrix.PosDef
import Mathlib.Data.Fintype.EquivFin

/-! # Another order of light curves and data sets: helper lemmas for C97 -/

namespace Mica

open Matrix

/-- `f` maps the numbers below `n` one-to-one to the numbers below `n`. -/
def PermOn (n : ℕ) (f : ℕ → ℕ) : Prop := (∀ i < n, f i < n) ∧ ∀ i < n, ∀ j < n, f i = f j → i = j

theorem PermOn.bijective {n : ℕ} {f : ℕ → ℕ} (h : PermOn n f) :
    Function.Bijective fun i : Fin n => (⟨f i, h.1 i i.2⟩ : Fin n) := by
  apply Finite.injective_iff_bijective.1
  intro i j hij
  exact Fin.ext (h.2 i i.2 j j.2 (Fin.mk.inj_iff.1 hij))

theorem PermOn.exists {n : ℕ} {f : ℕ → ℕ} (h : PermOn n f) {j : ℕ} (hj : j < n) : ∃ i < n, f i = j := by
  obtain ⟨i, hi⟩ := h.bijective.2 ⟨j, hj⟩
  exact ⟨i, i.2, Fin.mk.inj_iff.1 hi⟩

theorem PermOn.sum {n : ℕ} {f : ℕ → ℕ} (h : PermOn n f) (g : ℕ → ℝ) :
    ∑ i ∈ Finset.range n, g (f i) = ∑ i ∈ Finset.range n, g i := by
  rw [Finset.sum_range, Finset.sum_range]
  exact Equiv.sum_comp (Equiv.ofBijective _ h.bijective) fun i : Fin n => g i

/-- The likelihood does not depend on the order of the data and of the trend functions. -/
theorem margLL_reindex {n n' q q' : ℕ} (σ : Fin n' ≃ Fin n) (τ : Fin q' ≃ Fin q) (C : Matrix (Fin n) (Fin n) ℝ)
    (L : Matrix (Fin n) (Fin q) ℝ) (f : Fin n → ℝ) :
    margLL (C.submatrix σ σ) (L.submatrix σ τ) (f ∘ σ) = margLL C L f := by
  have hg : glsCoef (C.submatrix σ σ) (L.submatrix σ τ) (f ∘ σ) = glsCoef C L f ∘ τ := by
    unfold glsCoef
    rw [Matrix.inv_submatrix_equiv, Matrix.transpose_submatrix, Matrix.submatrix_mul_equiv, Matrix.submatrix_mul_equiv,
      Matrix.inv_submatrix_equiv, Matrix.submatrix_mulVec_equiv, Matrix.submatrix_mulVec_equiv,
      Matrix.submatrix_mulVec_equiv]
    simp only [Function.comp_assoc, Equiv.self_comp_symm, Function.comp_id]
  have hr : f ∘ σ - (L.submatrix σ τ).mulVec (glsCoef C L f ∘ τ) = (f - L.mulVec (glsCoef C L f)) ∘ σ := by
    rw [Matrix.submatrix_mulVec_equiv, Function.comp_assoc, Equiv.self_comp_symm, Function.comp_id]
    rfl
  unfold margLL
  rw [hg, hr, Matrix.inv_submatrix_equiv, Matrix.submatrix_mulVec_equiv, Function.comp_assoc, Equiv.self_comp_symm,
    Function.comp_id, comp_equiv_dotProduct_comp_equiv, Matrix.det_submatrix_equiv_self, Matrix.transpose_submatrix,
    Matrix.submatrix_mul_equiv, Matrix.submatrix_mul_equiv, Matrix.det_submatrix_equiv_self]

theorem posDef_reindex {n n' : ℕ} (σ : Fin n' ≃ Fin n) {C : Matrix (Fin n) (Fin n) ℝ} (h : C.PosDef) :
    (C.submatrix σ σ).PosDef := h.submatrix σ.injective

/-- The light curves `l'` are the light curves `l` in another order. -/
structure Reord (l l' : List LC) (ρ : ℕ → ℕ) : Prop where
  len : l'.length = l.length
  perm : PermOn l.length ρ
  get : ∀ s < l.length, l'[s]? = l[ρ s]?

theorem take_split (l : List LC) {s : ℕ} {a : LC} (ha : l[s]? = some a) :
    l = l.take s ++ a :: l.drop (s + 1) ∧ (l.take s).length = s := by
  obtain ⟨hs, rfl⟩ := List.getElem?_eq_some_iff.1 ha
  constructor
  · rw [← List.drop_eq_getElem_cons, List.take_append_drop]
  · rw [List.length_take]; omega

theorem locate_place (l : List LC) {s i : ℕ} {a : LC} (ha : l[s]? = some a) (hi : i < a.n) :
    totalN (l.take s) + i < totalN l ∧ locate l (totalN (l.take s) + i) = (s, i) := by
  obtain ⟨h1, h2⟩ := take_split l ha
  constructor
  · conv_rhs => rw [h1]
    rw [totalN_append, totalN]; omega
  · have := locate_split (l.take s) a (l.drop (s + 1)) i hi
    rwa [← h1, h2] at this

theorem place_locate (l : List LC) {p s i : ℕ} {a : LC} (hp : p < totalN l) (hl : locate l p = (s, i))
    (ha : l[s]? = some a) (hi : i < a.n) : p = totalN (l.take s) + i := by
  obtain ⟨h1, h2⟩ := locate_place l ha hi
  exact locate_inj l _ _ hp h1 (hl.trans h2.symm)

theorem concat_locate (g : LC → ℕ → ℝ) (l : List LC) {p s i : ℕ} {a : LC} (hp : p < totalN l)
    (hl : locate l p = (s, i)) (ha : l[s]? = some a) (hi : i < a.n) : concat g l p = g a i := by
  rw [place_locate l hp hl ha hi]
  have := concat_split g (l.take s) a (l.drop (s + 1)) i hi
  rwa [← (take_split l ha).1] at this

theorem trendRow_locate (nq : ℕ) (hq : 0 < nq) (l : List LC) {p s i : ℕ} (c : ℕ) {a : LC} (hp : p < totalN l)
    (hl : locate l p = (s, i)) (ha : l[s]? = some a) (hi : i < a.n) :
    trendRow nq l 0 p c = if c / nq = s then a.t i ^ (c % nq) else 0 := by
  rw [place_locate l hp hl ha hi]
  have := trendRow_entry nq (l.take s) a (l.drop (s + 1)) i c hi hq
  rwa [← (take_split l ha).1, (take_split l ha).2] at this

/-- The points of the light curves in the one order and in the other. -/
theorem Reord.points {l l' : List LC} {ρ : ℕ → ℕ} (h : Reord l l' ρ) :
    ∃ σ : Fin (totalN l') ≃ Fin (totalN l), ∀ p, locate l (σ p) = (ρ (locate l' p).1, (locate l' p).2) := by
  have hex : ∀ p : Fin (totalN l'), ∃ p2 : Fin (totalN l), locate l p2 = (ρ (locate l' p).1, (locate l' p).2) := by
    intro p
    obtain ⟨a, ha, hi⟩ := locate_valid l' p p.2
    have hs := locate_series_lt l' p p.2
    rw [h.len] at hs
    rw [h.get _ hs] at ha
    obtain ⟨h1, h2⟩ := locate_place l ha hi
    exact ⟨⟨_, h1⟩, h2⟩
  choose F hF using hex
  have hinj : Function.Injective F := by
    intro p p2 hpp
    have := hF p
    rw [hpp, hF p2] at this
    obtain ⟨e1, e2⟩ := Prod.mk.inj this
    have hs := locate_series_lt l' p p.2
    have hs2 := locate_series_lt l' p2 p2.2
    rw [h.len] at hs hs2
    have e3 := h.perm.2 _ hs2 _ hs e1
    exact Fin.ext (locate_inj l' _ _ p.2 p2.2 (Prod.ext e3.symm e2.symm))
  have hsur : Function.Surjective F := by
    intro p2
    obtain ⟨a, ha, hi⟩ := locate_valid l p2 p2.2
    obtain ⟨s, hs, hρ⟩ := h.perm.exists (locate_series_lt l p2 p2.2)
    rw [← hρ, ← h.get s hs] at ha
    obtain ⟨h1, h2⟩ := locate_place l' ha hi
    refine ⟨⟨_, h1⟩, Fin.ext (locate_inj l _ _ (F _).2 p2.2 ?_)⟩
    rw [hF, h2]
    exact Prod.ext hρ rfl
  exact ⟨Equiv.ofBijective F ⟨hinj, hsur⟩, hF⟩

/-- The trend functions in the one order and in the other. -/
theorem PermOn.columns {n : ℕ} {ρ : ℕ → ℕ} (h : PermOn n ρ) (nq : ℕ) {q q' : ℕ} (hq : q = nq * n) (hq' : q' = nq * n) :
    ∃ τ : Fin q' ≃ Fin q, ∀ c : Fin q', (τ c : ℕ) / nq = ρ (c / nq) ∧ (τ c : ℕ) % nq = c % nq := by
  subst hq hq'
  rcases Nat.eq_zero_or_pos nq with h0 | h0
  · subst h0
    exact ⟨Equiv.refl _, fun c => absurd c.2 (by simp)⟩
  have hdiv : ∀ c : Fin (nq * n), (c : ℕ) / nq < n := fun c => Nat.div_lt_of_lt_mul c.2
  have hlt : ∀ c : Fin (nq * n), nq * ρ (c / nq) + c % nq < nq * n := by
    intro c
    have h1 := h.1 _ (hdiv c)
    have h2 := Nat.mod_lt (c : ℕ) h0
    calc nq * ρ (c / nq) + c % nq < nq * ρ (c / nq) + nq := by omega
      _ = nq * (ρ (c / nq) + 1) := by ring
      _ ≤ nq * n := Nat.mul_le_mul_left _ h1
  have key : ∀ c : Fin (nq * n), (nq * ρ (c / nq) + c % nq) / nq = ρ (c / nq) ∧
      (nq * ρ (c / nq) + c % nq) % nq = (c : ℕ) % nq := by
    intro c
    have h2 := Nat.mod_lt (c : ℕ) h0
    constructor
    · rw [Nat.mul_add_div h0, Nat.div_eq_of_lt h2, add_zero]
    · rw [Nat.mul_add_mod, Nat.mod_mod]
  have hb : Function.Bijective fun c : Fin (nq * n) => (⟨nq * ρ (c / nq) + c % nq, hlt c⟩ : Fin (nq * n)) := by
    apply Finite.injective_iff_bijective.1
    intro c c2 hcc
    have hv := Fin.mk.inj_iff.1 hcc
    have e1 := (key c).1
    have e2 := (key c).2
    rw [hv, (key c2).1] at e1
    rw [hv, (key c2).2] at e2
    have e3 := h.2 _ (hdiv c2) _ (hdiv c) e1
    apply Fin.ext
    rw [← Nat.div_add_mod (c : ℕ) nq, ← Nat.div_add_mod (c2 : ℕ) nq, e3, e2]
  exact ⟨Equiv.ofBijective _ hb, key⟩

theorem Reord.trend {l l' : List LC} {ρ : ℕ → ℕ} (h : Reord l l' ρ) (nq : ℕ) {q : ℕ} (hq : q ≤ nq * l.length) {p p2 c c2 : ℕ}
    (hp : p < totalN l') (hp2 : p2 < totalN l) (hl : locate l p2 = (ρ (locate l' p).1, (locate l' p).2)) (hc : c < q)
    (h1 : c2 / nq = ρ (c / nq)) (h2 : c2 % nq = c % nq) : trendRow nq l' 0 p c = trendRow nq l 0 p2 c2 := by
  have h0 : 0 < nq := by
    rcases Nat.eq_zero_or_pos nq with h0 | h0
    · rw [h0, zero_mul] at hq; omega
    · exact h0
  obtain ⟨a, ha, hi⟩ := locate_valid l' p hp
  have hs := locate_series_lt l' p hp
  rw [h.len] at hs
  have ha' := ha
  rw [h.get _ hs] at ha'
  rw [trendRow_locate nq h0 l' c hp rfl ha hi, trendRow_locate nq h0 l c2 hp2 hl ha' hi, h1, h2]
  have hcs : c / nq < l.length := Nat.div_lt_of_lt_mul (by omega)
  by_cases he : c / nq = (locate l' p).1
  · rw [if_pos he, if_pos (by rw [he])]
  · rw [if_neg he, if_neg fun h' => he (h.perm.2 _ hcs _ hs h')]

theorem Reord.fall {l l' : List LC} {ρ : ℕ → ℕ} (h : Reord l l' ρ) (g : LC → ℕ → ℝ) {p p2 : ℕ}
    (hp : p < totalN l') (hp2 : p2 < totalN l) (hl : locate l p2 = (ρ (locate l' p).1, (locate l' p).2)) :
    concat g l' p = concat g l p2 := by
  obtain ⟨a, ha, hi⟩ := locate_valid l' p hp
  have hs := locate_series_lt l' p hp
  rw [h.len] at hs
  have ha' := ha
  rw [h.get _ hs] at ha'
  rw [concat_locate g l' hp rfl ha hi, concat_locate g l hp2 hl ha' hi]

theorem mapIdx_sum_perm {α : Type*} (l l' : List α) (κ : ℕ → ℕ) (hκ : PermOn l.length κ) (hlen : l'.length = l.length)
    (g g' : ℕ → α → ℝ) (h : ∀ k d' d, l'[k]? = some d' → l[κ k]? = some d → g' k d' = g (κ k) d) :
    (l'.mapIdx g').sum = (l.mapIdx g).sum := by
  have key : ∀ (m : List α) (G : ℕ → α → ℝ), (m.mapIdx G).sum =
      ∑ k ∈ Finset.range m.length, ((m[k]?).map (G k)).getD 0 := by
    intro m
    induction m with
    | nil => intro G; rfl
    | cons x m ih =>
      intro G
      rw [List.mapIdx_cons, List.sum_cons, ih, List.length_cons, Finset.sum_range_succ']
      simp only [List.getElem?_cons_succ, List.getElem?_cons_zero, Option.map_some, Option.getD_some]
      exact add_comm _ _
  rw [key, key, hlen, ← hκ.sum fun k => ((l[k]?).map (g k)).getD 0]
  refine Finset.sum_congr rfl fun k hk => ?_
  rw [Finset.mem_range] at hk
  have h1 : k < l'.length := by omega
  have h2 := hκ.1 k hk
  rw [List.getElem?_eq_getElem h1, List.getElem?_eq_getElem h2]
  simp only [Option.map_some, Option.getD_some]
  exact h k _ _ (List.getElem?_eq_getElem h1) (List.getElem?_eq_getElem h2)

end Mica
