import Verif.Spec.PlotFig

/-!
# Quantiles of a list of numbers
-/

namespace Mica

theorem npSorted_perm (xs : List ℝ) : (npSorted xs).Perm xs := List.mergeSort_perm _ _

theorem npSorted_length (xs : List ℝ) : (npSorted xs).length = xs.length := (npSorted_perm xs).length_eq

theorem npSorted_sorted (xs : List ℝ) : (npSorted xs).Pairwise (· ≤ ·) := by
  have := List.pairwise_mergeSort (le := fun a b : ℝ => decide (a ≤ b))
    (fun a b c h1 h2 => by simp only [decide_eq_true_eq] at *; exact h1.trans h2)
    (fun a b => by simp only [Bool.or_eq_true, decide_eq_true_eq]; exact le_total a b) xs
  unfold npSorted
  refine this.imp ?_
  intro a b h
  simpa using h

theorem npSorted_mono (xs : List ℝ) {i j : ℕ} (h : i ≤ j) (hj : j < xs.length) :
    (npSorted xs).getD i 0 ≤ (npSorted xs).getD j 0 := by
  have hl := npSorted_length xs
  rw [List.getD_eq_getElem _ _ (by omega), List.getD_eq_getElem _ _ (by omega)]
  rcases h.lt_or_eq with h | rfl
  · exact List.pairwise_iff_getElem.1 (npSorted_sorted xs) i j (by omega) (by omega) h
  · exact le_rfl

theorem npSorted_congr {xs ys : List ℝ} (h : xs.Perm ys) : npSorted xs = npSorted ys :=
  ((npSorted_perm xs).trans (h.trans (npSorted_perm ys).symm)).eq_of_pairwise' (npSorted_sorted xs) (npSorted_sorted ys)

/-- The place of the quantile and its neighbours. -/
theorem npQuantile_place {n : ℕ} (hn : 1 ≤ n) {q : ℝ} (h0 : 0 ≤ q) (h1 : q ≤ 1) :
    0 ≤ ((n : ℝ) - 1) * q ∧ ⌊((n : ℝ) - 1) * q⌋₊ ≤ n - 1 ∧ ⌈((n : ℝ) - 1) * q⌉₊ ≤ n - 1 := by
  have hn' : (1 : ℝ) ≤ n := by exact_mod_cast hn
  have h2 : 0 ≤ ((n : ℝ) - 1) * q := mul_nonneg (by linarith) h0
  have h3 : ((n : ℝ) - 1) * q ≤ ((n - 1 : ℕ) : ℝ) := by
    rw [Nat.cast_sub hn, Nat.cast_one]
    nlinarith
  exact ⟨h2, Nat.floor_le_of_le h3, Nat.ceil_le.2 h3⟩

theorem npQuantile_ge (xs : List ℝ) (hx : 1 ≤ xs.length) {q : ℝ} (h0 : 0 ≤ q) (h1 : q ≤ 1) :
    (npSorted xs).getD ⌊((xs.length : ℝ) - 1) * q⌋₊ 0 ≤ npQuantile xs q := by
  obtain ⟨p0, p1, -⟩ := npQuantile_place hx h0 h1
  unfold npQuantile
  have := npSorted_mono xs (i := ⌊((xs.length : ℝ) - 1) * q⌋₊) (j := min (⌊((xs.length : ℝ) - 1) * q⌋₊ + 1) (xs.length - 1))
    (by omega) (by omega)
  have h2 := Nat.floor_le p0
  simp only
  nlinarith [mul_nonneg (sub_nonneg.2 this) (sub_nonneg.2 h2)]

theorem npQuantile_le_next (xs : List ℝ) (hx : 1 ≤ xs.length) {q : ℝ} (h0 : 0 ≤ q) (h1 : q ≤ 1) :
    npQuantile xs q ≤ (npSorted xs).getD (min (⌊((xs.length : ℝ) - 1) * q⌋₊ + 1) (xs.length - 1)) 0 := by
  obtain ⟨p0, p1, -⟩ := npQuantile_place hx h0 h1
  unfold npQuantile
  have := npSorted_mono xs (i := ⌊((xs.length : ℝ) - 1) * q⌋₊) (j := min (⌊((xs.length : ℝ) - 1) * q⌋₊ + 1) (xs.length - 1))
    (by omega) (by omega)
  have h2 := (Nat.lt_floor_add_one (((xs.length : ℝ) - 1) * q)).le
  simp only
  nlinarith [mul_nonneg (sub_nonneg.2 this) (show 0 ≤ 1 - (((xs.length : ℝ) - 1) * q - ⌊((xs.length : ℝ) - 1) * q⌋₊) by linarith)]

theorem npQuantile_le (xs : List ℝ) (hx : 1 ≤ xs.length) {q : ℝ} (h0 : 0 ≤ q) (h1 : q ≤ 1) :
    npQuantile xs q ≤ (npSorted xs).getD ⌈((xs.length : ℝ) - 1) * q⌉₊ 0 := by
  obtain ⟨p0, p1, p2⟩ := npQuantile_place hx h0 h1
  rcases (Nat.floor_le p0).lt_or_eq with h | h
  · refine (npQuantile_le_next xs hx h0 h1).trans (npSorted_mono xs ?_ (by omega))
    have : ⌊((xs.length : ℝ) - 1) * q⌋₊ < ⌈((xs.length : ℝ) - 1) * q⌉₊ := Nat.lt_ceil.2 h
    omega
  · have e : npQuantile xs q = (npSorted xs).getD ⌊((xs.length : ℝ) - 1) * q⌋₊ 0 := by
      unfold npQuantile
      simp only
      rw [h, sub_self, mul_zero, add_zero]
    rw [e]
    exact npSorted_mono xs (Nat.floor_le_ceil _) (by omega)

theorem npQuantile_mono (xs : List ℝ) (hx : 1 ≤ xs.length) {q r : ℝ} (h0 : 0 ≤ q) (h : q ≤ r) (h1 : r ≤ 1) :
    npQuantile xs q ≤ npQuantile xs r := by
  have hn' : (1 : ℝ) ≤ xs.length := by exact_mod_cast hx
  obtain ⟨p0, p1, -⟩ := npQuantile_place hx h0 (h.trans h1)
  obtain ⟨r0, r1, -⟩ := npQuantile_place hx (h0.trans h) h1
  have hv : ((xs.length : ℝ) - 1) * q ≤ ((xs.length : ℝ) - 1) * r := mul_le_mul_of_nonneg_left h (by linarith)
  rcases (Nat.floor_mono hv).lt_or_eq with hlt | heq
  · refine (npQuantile_le_next xs hx h0 (h.trans h1)).trans
      (le_trans (npSorted_mono xs ?_ (by omega)) (npQuantile_ge xs hx (h0.trans h) h1))
    omega
  · unfold npQuantile
    simp only
    rw [← heq]
    have := npSorted_mono xs (i := ⌊((xs.length : ℝ) - 1) * q⌋₊) (j := min (⌊((xs.length : ℝ) - 1) * q⌋₊ + 1) (xs.length - 1))
      (by omega) (by omega)
    nlinarith [mul_le_mul_of_nonneg_left hv (sub_nonneg.2 this)]

theorem countP_below {s : List ℝ} (hs : s.Pairwise (· ≤ ·)) {a : ℕ} (ha : a < s.length) {x : ℝ} (hx : x ≤ s.getD a 0) :
    s.countP (fun v => decide (v < x)) ≤ a := by
  rw [← List.take_append_drop a s, List.countP_append]
  have h1 : (s.take a).countP (fun v => decide (v < x)) ≤ a :=
    List.countP_le_length.trans (List.length_take_le _ _)
  have h2 : (s.drop a).countP (fun v => decide (v < x)) = 0 := by
    rw [List.countP_eq_zero]
    intro v hv
    obtain ⟨i, hi, rfl⟩ := List.getElem_of_mem hv
    rw [List.getElem_drop]
    simp only [decide_eq_true_eq, not_lt]
    refine hx.trans ?_
    rw [List.getD_eq_getElem _ _ ha]
    rcases Nat.eq_zero_or_pos i with rfl | h
    · exact le_of_eq (by simp)
    · exact List.pairwise_iff_getElem.1 hs a (a + i) ha (by simp at hi; omega) (by omega)
  omega

theorem countP_above {s : List ℝ} (hs : s.Pairwise (· ≤ ·)) {a : ℕ} (ha : a < s.length) {x : ℝ} (hx : s.getD a 0 ≤ x) :
    s.countP (fun v => decide (x < v)) ≤ s.length - 1 - a := by
  have e := congrArg (List.countP fun v => decide (x < v)) (List.take_append_drop (a + 1) s)
  rw [List.countP_append] at e
  have h1 : (s.drop (a + 1)).countP (fun v => decide (x < v)) ≤ s.length - 1 - a := by
    refine List.countP_le_length.trans ?_
    rw [List.length_drop]; omega
  have h2 : (s.take (a + 1)).countP (fun v => decide (x < v)) = 0 := by
    rw [List.countP_eq_zero]
    intro v hv
    obtain ⟨i, hi, rfl⟩ := List.getElem_of_mem hv
    rw [List.getElem_take]
    simp only [decide_eq_true_eq, not_lt]
    refine le_trans ?_ hx
    rw [List.getD_eq_getElem _ _ ha]
    have hi' : i ≤ a := by simp at hi; omega
    rcases hi'.lt_or_eq with h | rfl
    · exact List.pairwise_iff_getElem.1 hs i a (by omega) ha h
    · exact le_rfl
  omega

theorem npQuantile_is (xs : List ℝ) (hx : 1 ≤ xs.length) {q : ℝ} (h0 : 0 ≤ q) (h1 : q ≤ 1) :
    IsQuantile xs q (npQuantile xs q) := by
  obtain ⟨p0, p1, p2⟩ := npQuantile_place hx h0 h1
  have hl := npSorted_length xs
  have e : ∀ p : ℝ → Bool, xs.countP p = (npSorted xs).countP p := fun p => ((npSorted_perm xs).countP_eq p).symm
  unfold IsQuantile
  rw [e, e]
  constructor
  · refine lt_of_le_of_lt (Nat.cast_le.2 (countP_below (npSorted_sorted xs) (by omega) (npQuantile_le xs hx h0 h1))) ?_
    exact Nat.ceil_lt_add_one p0
  · refine lt_of_le_of_lt (Nat.cast_le.2 (countP_above (npSorted_sorted xs) (by omega) (npQuantile_ge xs hx h0 h1))) ?_
    rw [hl, Nat.cast_sub p1, Nat.cast_sub hx]
    have := Nat.lt_floor_add_one (((xs.length : ℝ) - 1) * q)
    push_cast
    linarith

/-- How many entries lie between two quantiles. -/
theorem npQuantile_between (xs : List ℝ) (hx : 1 ≤ xs.length) {q r : ℝ} (h0 : 0 ≤ q) (h : q ≤ r) (h1 : r ≤ 1) :
    ((xs.length : ℝ) - 1) * (r - q) - 1 <
      (xs.countP fun v => decide (npQuantile xs q ≤ v ∧ v ≤ npQuantile xs r) : ℕ) := by
  have a := (npQuantile_is xs hx h0 (h.trans h1)).1
  have b := (npQuantile_is xs hx (h0.trans h) h1).2
  have key : ∀ ys : List ℝ, ys.length ≤ ys.countP (fun v => decide (v < npQuantile xs q)) +
      ys.countP (fun v => decide (npQuantile xs r < v)) +
      ys.countP (fun v => decide (npQuantile xs q ≤ v ∧ v ≤ npQuantile xs r)) := by
    intro ys
    induction ys with
    | nil => simp
    | cons y ys ih =>
      simp only [List.countP_cons, List.length_cons, decide_eq_true_eq]
      by_cases h1 : y < npQuantile xs q
      · simp only [h1, if_true]; omega
      · by_cases h2 : npQuantile xs r < y
        · simp only [h2, if_true]; omega
        · rw [if_pos (⟨not_lt.1 h1, not_lt.1 h2⟩ : npQuantile xs q ≤ y ∧ y ≤ npQuantile xs r)]; omega
  have := key xs
  have c : (xs.length : ℝ) ≤ _ := Nat.cast_le.2 this
  push_cast at c
  linarith

theorem npSorted_map {f : ℝ → ℝ} (hf : Monotone f) (xs : List ℝ) : npSorted (xs.map f) = (npSorted xs).map f := by
  refine ((npSorted_perm _).trans ((npSorted_perm xs).map f).symm).eq_of_pairwise' (npSorted_sorted _) ?_
  rw [List.pairwise_map]
  exact (npSorted_sorted xs).imp fun h => hf h

/-- Quantiles follow a change of unit and origin. -/
theorem npQuantile_affine (xs : List ℝ) (hx : 1 ≤ xs.length) (a b : ℝ) (ha : 0 ≤ a) {q : ℝ} (h0 : 0 ≤ q) (h1 : q ≤ 1) :
    npQuantile (xs.map fun x => a * x + b) q = a * npQuantile xs q + b := by
  obtain ⟨p0, p1, p2⟩ := npQuantile_place hx h0 h1
  have hl := npSorted_length xs
  unfold npQuantile
  rw [List.length_map, npSorted_map (f := fun x => a * x + b) (fun x y h => by simp only; nlinarith)]
  have e : ∀ i < xs.length, ((npSorted xs).map fun x => a * x + b).getD i 0 = a * (npSorted xs).getD i 0 + b := by
    intro i hi
    rw [List.getD_eq_getElem _ _ (by simp [hl, hi]), List.getD_eq_getElem _ _ (by omega), List.getElem_map]
  simp only
  rw [e _ (by omega), e _ (by omega)]
  ring

theorem npQuantile_perm {xs ys : List ℝ} (h : xs.Perm ys) (q : ℝ) : npQuantile xs q = npQuantile ys q := by
  unfold npQuantile
  rw [npSorted_congr h, h.length_eq]

end Mica
