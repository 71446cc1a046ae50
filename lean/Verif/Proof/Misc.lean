import Verif.Model.Misc
import Mathlib.Algebra.Order.Floor.Semiring
import Mathlib.Algebra.BigOperators.Group.List.Basic
import Mathlib.Data.List.Perm.Basic
import Mathlib.Data.List.Flatten

/-! # Helper lemmas for the smaller pieces -/

namespace Mica

/-! ## Model selection -/

theorem bestLoop_spec (s : ℝ × ℕ) (j : ℕ) (l : List ℝ) :
    s.1 ≤ (bestLoop s j l).1 ∧ (∀ z ∈ l, z ≤ (bestLoop s j l).1) ∧
    ((bestLoop s j l = s ∧ ∀ z ∈ l, z ≤ s.1) ∨
      ∃ i, l[i]? = some (bestLoop s j l).1 ∧ (bestLoop s j l).2 = j + i ∧ s.1 < (bestLoop s j l).1 ∧
        ∀ i' < i, ∀ z, l[i']? = some z → z < (bestLoop s j l).1) := by
  induction l generalizing s j with
  | nil => simp [bestLoop]
  | cons a l ih =>
    obtain ⟨h1, h2, h3⟩ := ih (bestStep s j a) (j + 1)
    simp only [bestLoop]
    set r := bestLoop (bestStep s j a) (j + 1) l with hr
    by_cases hlt : s.1 < a
    · have hs : bestStep s j a = (a, j) := by simp [bestStep, hlt]
      rw [hs] at h1 h3
      refine ⟨hlt.le.trans h1, ?_, Or.inr ?_⟩
      · intro z hz
        rcases List.mem_cons.1 hz with rfl | hz
        · exact h1
        · exact h2 z hz
      · rcases h3 with ⟨h3, -⟩ | ⟨i, hi, hj, hgt, hfirst⟩
        · exact ⟨0, by simp [h3], by simp [h3], by simpa [h3] using hlt, by simp⟩
        · refine ⟨i + 1, by simpa using hi, by omega, hlt.trans hgt, ?_⟩
          intro i' hi' z hz
          cases i' with
          | zero => simp at hz; subst hz; exact hgt
          | succ i' => exact hfirst i' (by omega) z (by simpa using hz)
    · have hs : bestStep s j a = s := by simp [bestStep, hlt]
      rw [hs] at h1 h3
      refine ⟨h1, ?_, ?_⟩
      · intro z hz
        rcases List.mem_cons.1 hz with rfl | hz
        · exact (not_lt.1 hlt).trans h1
        · exact h2 z hz
      · rcases h3 with ⟨h3, h4⟩ | ⟨i, hi, hj, hgt, hfirst⟩
        · left
          refine ⟨h3, ?_⟩
          intro z hz
          rcases List.mem_cons.1 hz with rfl | hz
          · exact not_lt.1 hlt
          · exact h4 z hz
        · right
          refine ⟨i + 1, by simpa using hi, by omega, hgt, ?_⟩
          intro i' hi' z hz
          cases i' with
          | zero => simp at hz; subst hz; exact (not_lt.1 hlt).trans_lt hgt
          | succ i' => exact hfirst i' (by omega) z (by simpa using hz)

/-! ## Sums -/

theorem foldl_add_eq_sum {α : Type} (f : α → ℝ) (l : List α) (a : ℝ) :
    l.foldl (fun acc i => acc + f i) a = a + (l.map f).sum := by
  induction l generalizing a with
  | nil => simp
  | cons x l ih => simp [ih, add_assoc]

/-! ## Row-major storage of samples -/

theorem flatten_length_eq {s : List (List ℝ)} {np : ℕ} (h : ∀ x ∈ s, x.length = np) :
    s.flatten.length = s.length * np := by
  induction s with
  | nil => simp
  | cons a s ih =>
    simp [ih fun x hx => h x (List.mem_cons_of_mem _ hx), h a (by simp), Nat.add_mul, Nat.add_comm]

theorem flatten_drop {s : List (List ℝ)} {np : ℕ} (h : ∀ x ∈ s, x.length = np) (k : ℕ) :
    s.flatten.drop (k * np) = (s.drop k).flatten := by
  induction k generalizing s with
  | zero => simp
  | succ k ih =>
    cases s with
    | nil => simp
    | cons a s =>
      have ha : a.length = np := h a (by simp)
      rw [List.flatten_cons, List.drop_append, ha]
      rw [List.drop_eq_nil_of_le (by rw [ha, Nat.add_mul]; omega)]
      simp only [List.nil_append, List.drop_succ_cons]
      rw [← ih fun x hx => h x (List.mem_cons_of_mem _ hx)]
      congr 1
      rw [Nat.add_mul]; omega

theorem flatten_take {s : List (List ℝ)} {np : ℕ} (h : ∀ x ∈ s, x.length = np) (k : ℕ) :
    s.flatten.take (k * np) = (s.take k).flatten := by
  induction k generalizing s with
  | zero => simp
  | succ k ih =>
    cases s with
    | nil => simp
    | cons a s =>
      have ha : a.length = np := h a (by simp)
      rw [List.flatten_cons, List.take_append, ha]
      rw [List.take_of_length_le (by rw [ha, Nat.add_mul]; omega)]
      simp only [List.take_succ_cons, List.flatten_cons]
      rw [← ih fun x hx => h x (List.mem_cons_of_mem _ hx)]
      congr 2
      rw [Nat.add_mul]; omega

theorem taskSamples_flatten {s : List (List ℝ)} {np : ℕ} (h : ∀ x ∈ s, x.length = np) :
    taskSamples s.flatten s.length np = s := by
  apply List.ext_getElem?
  intro m
  unfold taskSamples
  rw [List.getElem?_map]
  by_cases hm : m < s.length
  · rw [List.getElem?_range hm, List.getElem?_eq_getElem hm, Option.map_some, flatten_drop h]
    have h' : ∀ x ∈ s.drop m, x.length = np := fun x hx => h x (List.mem_of_mem_drop hx)
    have := flatten_take h' 1
    rw [Nat.one_mul] at this
    rw [this, List.drop_eq_getElem_cons hm, List.take_succ_cons, List.take_zero, List.flatten_singleton]
  · rw [List.getElem?_eq_none (by simp; omega), List.getElem?_eq_none (by omega)]
    rfl

/-! ## The split -/

theorem taskPs_root {n T : ℕ} (hT : 0 < T) : taskPs n T 0 = avgPs n T + n % T := by
  unfold taskPs avgPs
  obtain ⟨k, rfl⟩ : ∃ k, T = k + 1 := ⟨T - 1, by omega⟩
  have := Nat.div_add_mod n (k + 1)
  have e : (k + 1) * (n / (k + 1)) = n / (k + 1) * k + n / (k + 1) := by ring
  simp only [if_pos, Nat.add_sub_cancel]
  generalize hq : n / (k + 1) = q at *
  generalize hqk : q * k = qk at *
  omega

/-- Samples of task `i`. -/
def taskPart (s : List (List ℝ)) (T i : ℕ) : List (List ℝ) :=
  ((s.drop (s.length % T)).drop (i * (s.length / T))).take (s.length / T)

theorem taskPart_length {s : List (List ℝ)} {T i : ℕ} (hi : i < T) :
    (taskPart s T i).length = s.length / T := by
  unfold taskPart
  have := Nat.div_add_mod s.length T
  have h2 : (i + 1) * (s.length / T) ≤ T * (s.length / T) := Nat.mul_le_mul_right _ hi
  rw [Nat.add_mul] at h2
  simp only [List.length_take, List.length_drop]
  omega

theorem taskBuffer_eq {s : List (List ℝ)} {np T i : ℕ} (h : ∀ x ∈ s, x.length = np) (hi : i < T) :
    taskBuffer s.flatten s.length T np i =
      .ok (if i = 0 then taskPart s T 0 ++ s.take (s.length % T) else taskPart s T i).flatten := by
  have hT : 0 < T := by omega
  have hdm := Nat.div_add_mod s.length T
  have hlen := flatten_length_eq h
  have hroot : taskPs s.length T 0 - avgPs s.length T = s.length % T := by
    rw [taskPs_root hT]; omega
  have hsc : mpiScatter s.flatten ((taskPs s.length T 0 - avgPs s.length T) * np)
      (avgPs s.length T * np) T i = .ok (taskPart s T i).flatten := by
    rw [hroot]
    unfold mpiScatter avgPs
    have e : s.length % T * np + T * (s.length / T * np) = s.length * np := by
      conv_rhs => rw [← hdm]
      ring
    rw [if_neg (by rw [hlen, e]; omega), flatten_drop h]
    have h1 : ∀ x ∈ s.drop (s.length % T), x.length = np := fun x hx => h x (List.mem_of_mem_drop hx)
    rw [← Nat.mul_assoc, flatten_drop h1]
    have h2 : ∀ x ∈ (s.drop (s.length % T)).drop (i * (s.length / T)), x.length = np :=
      fun x hx => h1 x (List.mem_of_mem_drop hx)
    rw [flatten_take h2]
    rfl
  unfold taskBuffer
  rw [hsc, Res.ok_bind]
  have hge : avgPs s.length T ≤ taskPs s.length T i := by
    by_cases h0 : i = 0
    · subst h0; rw [taskPs_root hT]; omega
    · simp [taskPs, h0]
  rw [if_neg (by have := Nat.mul_le_mul_right np hge; omega)]
  by_cases h0 : i = 0
  · subst h0
    rw [if_pos rfl, if_pos rfl, hroot]
    unfold rootCopy
    have hp : ∀ x ∈ taskPart s T 0, x.length = np := fun x hx =>
      h x (List.mem_of_mem_drop (List.mem_of_mem_drop (List.mem_of_mem_take hx)))
    rw [flatten_length_eq hp, taskPart_length hi, hlen, if_neg, List.flatten_append, flatten_take h]
    have : s.length % T ≤ s.length := Nat.mod_le _ _
    have := Nat.mul_le_mul_right np this
    have e2 : taskPs s.length T 0 * np = s.length / T * np + s.length % T * np := by
      rw [taskPs_root hT, avgPs, Nat.add_mul]
    omega
  · rw [if_neg h0, if_neg h0]

theorem taskSamples_eq {s : List (List ℝ)} {np T i : ℕ} (h : ∀ x ∈ s, x.length = np) (hi : i < T) :
    taskSamples (if i = 0 then taskPart s T 0 ++ s.take (s.length % T) else taskPart s T i).flatten
      (taskPs s.length T i) np =
      if i = 0 then taskPart s T 0 ++ s.take (s.length % T) else taskPart s T i := by
  have hT : 0 < T := by omega
  have hm : s.length % T ≤ s.length := Nat.mod_le _ _
  have hl : (if i = 0 then taskPart s T 0 ++ s.take (s.length % T) else taskPart s T i).length =
      taskPs s.length T i := by
    by_cases h0 : i = 0
    · subst h0
      rw [if_pos rfl, List.length_append, taskPart_length hi, List.length_take, taskPs_root hT, avgPs]
      omega
    · rw [if_neg h0, taskPart_length hi, taskPs, if_neg h0, avgPs]
  rw [← hl]
  apply taskSamples_flatten
  intro x hx
  split at hx
  · rcases List.mem_append.1 hx with hx | hx
    · exact h x (List.mem_of_mem_drop (List.mem_of_mem_drop (List.mem_of_mem_take hx)))
    · exact h x (List.mem_of_mem_take hx)
  · exact h x (List.mem_of_mem_drop (List.mem_of_mem_drop (List.mem_of_mem_take hx)))

/-- Consecutive runs of equal length put together. -/
theorem flatMap_runs {α : Type} (l : List α) (c k : ℕ) :
    (List.range k).flatMap (fun i => (l.drop (i * c)).take c) = l.take (k * c) := by
  induction k with
  | zero => simp
  | succ k ih =>
    rw [List.range_succ, List.flatMap_append, ih, List.flatMap_singleton, Nat.add_mul, Nat.one_mul,
      List.take_add]

theorem allParts_perm {s : List (List ℝ)} {T : ℕ} (hT : 0 < T) :
    ((List.range T).flatMap fun i =>
      if i = 0 then taskPart s T 0 ++ s.take (s.length % T) else taskPart s T i).Perm s := by
  obtain ⟨k, rfl⟩ : ∃ k, T = k + 1 := ⟨T - 1, by omega⟩
  have hdm := Nat.div_add_mod s.length (k + 1)
  have e : (List.range (k + 1)).flatMap (taskPart s (k + 1)) = s.drop (s.length % (k + 1)) := by
    unfold taskPart
    rw [flatMap_runs, List.take_of_length_le]
    rw [List.length_drop]
    omega
  rw [List.range_succ_eq_map, List.flatMap_cons] at e ⊢
  rw [if_pos rfl]
  have e2 : ((List.range k).map Nat.succ).flatMap (fun i =>
      if i = 0 then taskPart s (k + 1) 0 ++ s.take (s.length % (k + 1)) else taskPart s (k + 1) i) =
      ((List.range k).map Nat.succ).flatMap (taskPart s (k + 1)) := by
    rw [List.flatMap_map, List.flatMap_map]
    rfl
  rw [e2]
  have : (taskPart s (k + 1) 0 ++ s.take (s.length % (k + 1)) ++
      ((List.range k).map Nat.succ).flatMap (taskPart s (k + 1))).Perm
      (s.take (s.length % (k + 1)) ++ (taskPart s (k + 1) 0 ++
        ((List.range k).map Nat.succ).flatMap (taskPart s (k + 1)))) := by
    rw [← List.append_assoc]
    exact List.Perm.append_right _ List.perm_append_comm
  refine this.trans ?_
  rw [e, List.take_append_drop]

/-! ## Averages -/

theorem accFold (g : List ℝ → ℝ × ℝ) (l : List (List ℝ)) (a : RecAcc) :
    l.foldl (accStep g) a =
      ⟨a.best + (l.map fun x => (g x).1).sum, a.sq + (l.map fun x => (g x).1 * (g x).1).sum,
        l.foldl (fun m x => max m (g x).2) a.emax⟩ := by
  induction l generalizing a with
  | nil => simp
  | cons x l ih => simp [ih, accStep, add_assoc]

theorem foldl_max_eq (f : List ℝ → ℝ) (l : List (List ℝ)) (a : ℝ) (b : ℝ) :
    l.foldl (fun m x => max m (f x)) (max a b) = max a (l.foldl (fun m x => max m (f x)) b) := by
  induction l generalizing b with
  | nil => rfl
  | cons x l ih =>
    simp only [List.foldl_cons]
    rw [max_assoc, ih]

theorem le_foldl_max (f : List ℝ → ℝ) (l : List (List ℝ)) (a : ℝ) :
    a ≤ l.foldl (fun m x => max m (f x)) a := by
  induction l generalizing a with
  | nil => exact le_rfl
  | cons x l ih => exact (le_max_left _ _).trans (ih _)

theorem accTask_append (g : List ℝ → ℝ × ℝ) (l₁ l₂ : List (List ℝ)) :
    accMerge (accTask g l₁) (accTask g l₂) = accTask g (l₁ ++ l₂) := by
  unfold accTask accMerge
  rw [accFold, accFold, accFold]
  simp only [List.map_append, List.sum_append, zero_add, List.foldl_append]
  congr 1
  rw [← foldl_max_eq, max_eq_left (le_foldl_max _ _ _)]

theorem accTask_perm (g : List ℝ → ℝ × ℝ) {l₁ l₂ : List (List ℝ)} (h : l₁.Perm l₂) :
    accTask g l₁ = accTask g l₂ := by
  unfold accTask
  rw [accFold, accFold, (h.map _).sum_eq, (h.map _).sum_eq]
  congr 1
  exact h.foldl_eq' (fun x _ y _ z => by rw [max_assoc, max_assoc, max_comm (g x).2]) _

theorem reduceTasks_eq (g : List ℝ → ℝ × ℝ) {s : List (List ℝ)} {np T : ℕ}
    (h : ∀ x ∈ s, x.length = np) (i : ℕ) (hi : i < T) :
    reduceTasks g s.flatten s.length T np i = .ok (accTask g ((List.range (i + 1)).flatMap fun i =>
      if i = 0 then taskPart s T 0 ++ s.take (s.length % T) else taskPart s T i)) := by
  induction i with
  | zero =>
    rw [reduceTasks, taskBuffer_eq h hi, Res.ok_bind, taskSamples_eq h hi]
    simp
  | succ i ih =>
    rw [reduceTasks, ih (by omega), Res.ok_bind, taskBuffer_eq h hi, Res.ok_bind, taskSamples_eq h hi,
      accTask_append, List.range_succ (n := i + 1), List.flatMap_append]
    simp

end Mica
