import Verif.Props.Kernel
import Mathlib.LinearAlgebra.Matrix.Block
import Mathlib.Data.Nat.Choose.Sum

/-! # Moving the origin of time: helper lemmas for C94 -/

namespace Mica

open Matrix

/-- A light curve with the constant `c` added to all times. -/
def LC.moved (c : ℝ) (a : LC) : LC := { a with t := fun i => a.t i + c }

/-- A data set with the constant `c` added to all times of all its light curves. -/
def DSet.moved (c : ℝ) (d : DSet) : DSet := ⟨d.con.moved c, d.line.map (LC.moved c)⟩

/-- A linear change of the trend functions with determinant 1 does not change the likelihood. -/
theorem margLL_mul {n q : ℕ} (C : Matrix (Fin n) (Fin n) ℝ) (L : Matrix (Fin n) (Fin q) ℝ) (f : Fin n → ℝ)
    (T : Matrix (Fin q) (Fin q) ℝ) (hT : T.det = 1) : margLL C (L * T) f = margLL C L f := by
  have hu : IsUnit T.det := by rw [hT]; exact isUnit_one
  have hut : IsUnit Tᵀ.det := by rw [Matrix.det_transpose]; exact hu
  have hM : (L * T)ᵀ * (C⁻¹ * (L * T)) = Tᵀ * ((Lᵀ * (C⁻¹ * L)) * T) := by
    rw [Matrix.transpose_mul]; simp only [Matrix.mul_assoc]
  have hg : (L * T).mulVec (glsCoef C (L * T) f) = L.mulVec (glsCoef C L f) := by
    unfold glsCoef
    rw [hM, Matrix.mul_inv_rev, Matrix.mul_inv_rev, Matrix.transpose_mul]
    simp only [Matrix.mulVec_mulVec, Matrix.mul_assoc]
    congr 2
    rw [← Matrix.mul_assoc T, Matrix.mul_nonsing_inv _ hu, Matrix.one_mul, ← Matrix.mul_assoc Tᵀ⁻¹,
      Matrix.nonsing_inv_mul _ hut, Matrix.one_mul]
  unfold margLL
  rw [hg, hM, Matrix.det_mul, Matrix.det_mul, Matrix.det_transpose, hT, one_mul, mul_one]

theorem margLLN_mul (n q : ℕ) (C L L' T : ℕ → ℕ → ℝ) (f : ℕ → ℝ)
    (hL : ∀ i < n, ∀ j < q, L' i j = ∑ c ∈ Finset.range q, L i c * T c j)
    (hT : ∀ i j, j < i → T i j = 0) (hd : ∀ i, T i i = 1) :
    margLLN n q C L' f = margLLN n q C L f := by
  unfold margLLN
  have e : (Matrix.of fun (i : Fin n) (j : Fin q) => L' i j) =
      (Matrix.of fun (i : Fin n) (j : Fin q) => L i j) * (Matrix.of fun i j : Fin q => T i j) := by
    ext i j
    rw [Matrix.mul_apply, Matrix.of_apply, hL i i.2 j j.2]
    exact (Fin.sum_univ_eq_sum_range (fun c => L i c * T c j) q).symm
  rw [e]
  apply margLL_mul
  rw [Matrix.det_of_isUpperTriangular]
  · exact Finset.prod_eq_one fun i _ => hd i
  · intro i j hij
    exact hT i j hij

/-- The change of the monomials under a shift of the argument. -/
noncomputable def binomT (c : ℝ) (i j : ℕ) : ℝ := c ^ (j - i) * (j.choose i)

theorem pow_shift (t c : ℝ) {j q : ℕ} (hj : j < q) :
    (t + c) ^ j = ∑ i ∈ Finset.range q, t ^ i * binomT c i j := by
  rw [add_pow, ← Finset.sum_subset (Finset.range_subset_range.2 hj)]
  · exact Finset.sum_congr rfl fun i _ => by rw [binomT, mul_assoc]
  · intro i _ hi
    rw [Finset.mem_range, not_lt] at hi
    rw [binomT, Nat.choose_eq_zero_of_lt hi, Nat.cast_zero, mul_zero, mul_zero]

/-- The same for the blocks of all light curves. -/
noncomputable def binomB (nq : ℕ) (c : ℝ) (i j : ℕ) : ℝ :=
  if i / nq = j / nq then binomT c (i % nq) (j % nq) else 0

theorem binomB_upper (nq : ℕ) (c : ℝ) {i j : ℕ} (h : j < i) : binomB nq c i j = 0 := by
  unfold binomB
  split
  · rename_i he
    have h1 := Nat.div_add_mod i nq
    have h2 := Nat.div_add_mod j nq
    rw [he] at h1
    rw [binomT, Nat.choose_eq_zero_of_lt (by omega), Nat.cast_zero, mul_zero]
  · rfl

theorem binomB_diag (nq : ℕ) (c : ℝ) (i : ℕ) : binomB nq c i i = 1 := by
  simp [binomB, binomT]

theorem sum_divBlock (nq N s : ℕ) (hq : 0 < nq) (hs : s < N) (F : ℕ → ℝ) :
    ∑ c ∈ Finset.range (nq * N), (if c / nq = s then F (c % nq) else 0) = ∑ j ∈ Finset.range nq, F j := by
  rw [← Finset.sum_filter]
  symm
  refine Finset.sum_nbij' (fun j => s * nq + j) (fun c => c % nq) ?_ ?_ ?_ ?_ ?_
  · intro j hj
    rw [Finset.mem_range] at hj
    rw [Finset.mem_filter, Finset.mem_range]
    refine ⟨by nlinarith, ?_⟩
    rw [add_comm, Nat.add_mul_div_right _ _ hq, Nat.div_eq_of_lt hj, zero_add]
  · intro c _
    exact Finset.mem_range.2 (Nat.mod_lt _ hq)
  · intro j hj
    rw [Finset.mem_range] at hj
    rw [add_comm, Nat.add_mul_mod_self_right, Nat.mod_eq_of_lt hj]
  · intro c hc
    rw [Finset.mem_filter] at hc
    have := Nat.div_add_mod c nq
    rw [hc.2, mul_comm] at this
    exact this
  · intro j hj
    rw [Finset.mem_range] at hj
    rw [add_comm, Nat.add_mul_mod_self_right, Nat.mod_eq_of_lt hj]

theorem trendRow_entry (nq : ℕ) (pre : List LC) (a : LC) (post : List LC) (m c : ℕ) (hm : m < a.n) (hq : 0 < nq) :
    trendRow nq (pre ++ a :: post) 0 (totalN pre + m) c =
      if c / nq = pre.length then a.t m ^ (c % nq) else 0 := by
  rw [trendRow_split nq 0 pre a post m c hm, zero_add]
  have h1 := Nat.div_add_mod c nq
  have h2 := Nat.mod_lt c hq
  by_cases h : c / nq = pre.length
  · rw [h, mul_comm] at h1
    rw [if_pos h, if_pos (by omega)]
    congr 1; omega
  · rw [if_neg h, if_neg]
    rintro ⟨h3, h4⟩
    apply h
    rw [← Nat.div_eq_of_lt_le (k := pre.length) (m := c) (n := nq)]
    · omega
    · nlinarith

theorem totalN_moved (c : ℝ) (l : List LC) : totalN (l.map (LC.moved c)) = totalN l := by
  induction l with
  | nil => rfl
  | cons a l ih => simp only [List.map_cons, totalN, ih]; rfl

theorem exists_split (l : List LC) (p : ℕ) (hp : p < totalN l) :
    ∃ pre a post m, l = pre ++ a :: post ∧ p = totalN pre + m ∧ m < a.n := by
  induction l generalizing p with
  | nil => simp [totalN] at hp
  | cons a l ih =>
    by_cases h : p < a.n
    · exact ⟨[], a, l, p, rfl, by simp [totalN], h⟩
    · obtain ⟨pre, b, post, m, rfl, h2, h3⟩ := ih (p - a.n) (by simp only [totalN] at hp; omega)
      exact ⟨a :: pre, b, post, m, rfl, by simp only [totalN]; omega, h3⟩

theorem trendRow_moved (nq : ℕ) (c : ℝ) (l : List LC) (p : ℕ) (hp : p < totalN l) (j : ℕ) (hq : 0 < nq) :
    trendRow nq (l.map (LC.moved c)) 0 p j =
      ∑ i ∈ Finset.range (nq * l.length), trendRow nq l 0 p i * binomB nq c i j := by
  obtain ⟨pre, a, post, m, rfl, rfl, hm⟩ := exists_split l p hp
  have e : totalN pre = totalN (pre.map (LC.moved c)) := (totalN_moved c pre).symm
  have e1 : trendRow nq ((pre ++ a :: post).map (LC.moved c)) 0 (totalN pre + m) j =
      if j / nq = pre.length then (a.t m + c) ^ (j % nq) else 0 := by
    rw [e, List.map_append, List.map_cons, trendRow_entry nq _ (a.moved c) _ m j hm hq, List.length_map]
    rfl
  rw [e1]
  have e2 : ∀ i, trendRow nq (pre ++ a :: post) 0 (totalN pre + m) i * binomB nq c i j =
      if i / nq = pre.length then (if pre.length = j / nq then a.t m ^ (i % nq) * binomT c (i % nq) (j % nq) else 0)
        else 0 := by
    intro i
    rw [trendRow_entry nq pre a post m i hm hq, binomB]
    by_cases h : i / nq = pre.length
    · rw [if_pos h, if_pos h, h]
      split <;> simp
    · rw [if_neg h, if_neg h, zero_mul]
  rw [Finset.sum_congr rfl fun i _ => e2 i, sum_divBlock nq _ pre.length hq (by simp)
    (fun i => if pre.length = j / nq then a.t m ^ i * binomT c i (j % nq) else 0)]
  by_cases h : j / nq = pre.length
  · rw [if_pos h]
    simp only [if_pos h.symm]
    exact pow_shift _ _ (Nat.mod_lt _ hq)
  · rw [if_neg h]
    exact (Finset.sum_eq_zero fun i _ => if_neg fun h' => h h'.symm).symm

end Mica
