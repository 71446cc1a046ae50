import Verif.Model.Mock
import Mathlib.Algebra.BigOperators.Intervals
import Mathlib.Algebra.Field.GeomSum
import Mathlib.Analysis.SpecialFunctions.Complex.Log
import Mathlib.Tactic.Linarith
import Mathlib.Tactic.FieldSimp
import Mathlib.Tactic.Ring

namespace Mica

open Complex (I)
open Finset

/-! ## Roots of unity -/

theorem rootPow_add (n : ℕ) (a b : ℤ) : rootPow n (a + b) = rootPow n a * rootPow n b := by
  unfold rootPow
  rw [← Complex.exp_add]
  congr 1
  push_cast
  ring

theorem rootPow_zero (n : ℕ) : rootPow n 0 = 1 := by simp [rootPow]

theorem rootPow_conj (n : ℕ) (a : ℤ) : (starRingEnd ℂ) (rootPow n a) = rootPow n (-a) := by
  unfold rootPow
  rw [← Complex.exp_conj]
  congr 1
  simp only [map_div₀, map_mul, Complex.conj_ofReal, Complex.conj_I, map_ofNat, map_intCast, map_natCast]
  push_cast
  ring

theorem rootPow_mul_n {n : ℕ} (hn : 0 < n) (a : ℤ) : rootPow n (n * a) = 1 := by
  unfold rootPow
  rw [Complex.exp_eq_one_iff]
  refine ⟨a, ?_⟩
  have : (n : ℂ) ≠ 0 := by exact_mod_cast hn.ne'
  push_cast
  field_simp

theorem rootPow_mod {n : ℕ} (hn : 0 < n) (a b : ℤ) : rootPow n (a + n * b) = rootPow n a := by
  rw [rootPow_add, rootPow_mul_n hn, mul_one]

theorem rootPow_eq_one {n : ℕ} (hn : 0 < n) (j : ℤ) : rootPow n j = 1 ↔ (n : ℤ) ∣ j := by
  have hn0 : (n : ℂ) ≠ 0 := by exact_mod_cast hn.ne'
  constructor
  · intro h
    unfold rootPow at h
    rw [Complex.exp_eq_one_iff] at h
    obtain ⟨a, ha⟩ := h
    refine ⟨a, ?_⟩
    have h2 : (2 * Real.pi * I : ℂ) ≠ 0 := Complex.two_pi_I_ne_zero
    have h3 : (2 * Real.pi * I : ℂ) * (j - n * a) = 0 := by
      field_simp at ha
      have : (2 * Real.pi * I : ℂ) * j = 2 * Real.pi * I * (n * a) := by linear_combination (2 * Real.pi * I : ℂ) * ha
      linear_combination this
    have h4 := (mul_eq_zero.1 h3).resolve_left h2
    have h5 : (j : ℂ) = ((n * a : ℤ) : ℂ) := by push_cast; linear_combination h4
    exact_mod_cast h5
  · rintro ⟨a, rfl⟩
    exact rootPow_mul_n hn a

theorem rootPow_pow (n : ℕ) (j : ℤ) (k : ℕ) : rootPow n j ^ k = rootPow n (k * j) := by
  induction k with
  | zero => simp [rootPow_zero]
  | succ k ih =>
    rw [pow_succ, ih, ← rootPow_add]
    congr 1
    push_cast
    ring

/-- Orthogonality. -/
theorem rootPow_sum {n : ℕ} (hn : 0 < n) (j : ℤ) :
    ∑ k ∈ range n, rootPow n ((k : ℤ) * j) = if (n : ℤ) ∣ j then (n : ℂ) else 0 := by
  have e : ∑ k ∈ range n, rootPow n ((k : ℤ) * j) = ∑ k ∈ range n, rootPow n j ^ k :=
    Finset.sum_congr rfl fun k _ => (rootPow_pow n j k).symm
  rw [e]
  by_cases h : (n : ℤ) ∣ j
  · rw [if_pos h, (rootPow_eq_one hn j).2 h]; simp
  · rw [if_neg h]
    have hne : rootPow n j ≠ 1 := fun h1 => h ((rootPow_eq_one hn j).1 h1)
    rw [geom_sum_eq hne, rootPow_pow, rootPow_mul_n hn, sub_self, zero_div]

/-! ## Symmetric sums -/

theorem sum_symm (n : ℕ) (hn : 0 < n) (r : ℕ → ℝ) (h : ∀ k, 0 < k → k < n → r (n - k) = r k) :
    ∑ k ∈ range n, r k = r 0 + 2 * ∑ k ∈ Ioc 0 ((n - 1) / 2), r k + if n % 2 = 0 then r (n / 2) else 0 := by
  have hIoc : ∀ M, ∑ k ∈ Ioc 0 M, r k = ∑ k ∈ range M, r (k + 1) := by
    intro M
    rw [Finset.range_eq_Ico, Finset.sum_Ico_add' r 0 M 1]
    refine Finset.sum_congr ?_ fun _ _ => rfl
    ext k; simp only [mem_Ioc, mem_Ico]; omega
  rw [hIoc]
  obtain ⟨p, rfl⟩ : ∃ p, n = p + 1 := ⟨n - 1, by omega⟩
  rw [Finset.sum_range_succ', Nat.add_sub_cancel]
  rcases Nat.even_or_odd' p with ⟨q, rfl | rfl⟩
  · -- n = 2q+1
    rw [show 2 * q / 2 = q by omega, if_neg (by omega), two_mul q, Finset.sum_range_add]
    have : ∑ x ∈ range q, r (q + x + 1) = ∑ x ∈ range q, r (x + 1) := by
      rw [← Finset.sum_range_reflect]
      refine Finset.sum_congr rfl fun x hx => ?_
      have hx := Finset.mem_range.1 hx
      rw [← h (x + 1) (by omega) (by omega)]
      congr 1; omega
    rw [this]; ring
  · -- n = 2q+2
    rw [show (2 * q + 1) / 2 = q by omega, if_pos (by omega), show (2 * q + 1 + 1) / 2 = q + 1 by omega,
      show 2 * q + 1 = (q + 1) + q by omega, Finset.sum_range_add, Finset.sum_range_succ]
    have : ∑ x ∈ range q, r (q + 1 + x + 1) = ∑ x ∈ range q, r (x + 1) := by
      rw [← Finset.sum_range_reflect]
      refine Finset.sum_congr rfl fun x hx => ?_
      have hx := Finset.mem_range.1 hx
      rw [← h (x + 1) (by omega) (by omega)]
      congr 1; omega
    rw [this]; ring

/-! ## The convolution -/

theorem rfft_conj {n : ℕ} (hn : 0 < n) (a : ℕ → ℝ) (k : ℕ) (hk : k ≤ n) :
    npRfft n a (n - k) = (starRingEnd ℂ) (npRfft n a k) := by
  unfold npRfft
  rw [map_sum]
  refine Finset.sum_congr rfl fun m _ => ?_
  rw [map_mul, Complex.conj_ofReal, rootPow_conj]
  congr 1
  have : -(((n - k : ℕ) : ℤ) * m) = -(-((k : ℤ) * m)) + n * (-m) := by
    push_cast [hk]; ring
  rw [this, rootPow_mod hn]

/-- The half-length inverse transform of a product of spectra of real arrays is the full sum. -/
theorem irfft_full {n : ℕ} (hn : 0 < n) (a b : ℕ → ℝ) (m : ℕ) :
    npIrfft n (fun k => npRfft n a k * npRfft n b k) m =
      (∑ k ∈ range n, npRfft n a k * npRfft n b k * rootPow n ((k : ℤ) * m)).re / n := by
  unfold npIrfft
  congr 1
  rw [Complex.re_sum, sum_symm n hn]
  · simp only [Nat.cast_zero, zero_mul, rootPow_zero, mul_one]
    congr 1
    by_cases h2 : n % 2 = 0
    · rw [if_pos h2, if_pos h2]
      have : rootPow n (((n / 2 : ℕ) : ℤ) * m) = ((-1 : ℝ) ^ m : ℝ) := by
        have h := rootPow_pow n ((n / 2 : ℕ) : ℤ) m
        rw [mul_comm] at h
        rw [← h]
        have : rootPow n ((n / 2 : ℕ) : ℤ) = -1 := by
          unfold rootPow
          rw [← Complex.exp_pi_mul_I]
          congr 1
          have hn0 : (n : ℂ) ≠ 0 := by exact_mod_cast hn.ne'
          obtain ⟨q, rfl⟩ : ∃ q, n = 2 * q := ⟨n / 2, by omega⟩
          rw [show 2 * q / 2 = q by omega]
          push_cast
          have hq : (q : ℂ) ≠ 0 := by
            intro h; apply hn0; push_cast; rw [h, mul_zero]
          field_simp
        rw [this]; push_cast; rfl
      rw [this, Complex.re_mul_ofReal]
    · rw [if_neg h2, if_neg h2]
  · intro k hk hkn
    rw [rfft_conj hn a k hkn.le, rfft_conj hn b k hkn.le]
    have : rootPow n (((n - k : ℕ) : ℤ) * m) = (starRingEnd ℂ) (rootPow n ((k : ℤ) * m)) := by
      rw [rootPow_conj]
      have : (((n - k : ℕ) : ℤ) * m) = -((k : ℤ) * m) + n * m := by push_cast [hkn.le]; ring
      rw [this, rootPow_mod hn]
    rw [this, ← map_mul, ← map_mul, Complex.conj_re]

/-- The convolution theorem for the arrays of the script. -/
theorem irfft_conv {n : ℕ} (hn : 0 < n) (a b : ℕ → ℝ) (m : ℕ) :
    npIrfft n (fun k => npRfft n a k * npRfft n b k) m =
      ∑ j ∈ range n, b j * a ((m + n - j) % n) := by
  rw [irfft_full hn]
  have hn0 : (n : ℝ) ≠ 0 := by exact_mod_cast hn.ne'
  rw [div_eq_iff hn0]
  have key : ∑ k ∈ range n, npRfft n a k * npRfft n b k * rootPow n ((k : ℤ) * m) =
      ((∑ j ∈ range n, b j * a ((m + n - j) % n)) * n : ℝ) := by
    have e1 : ∀ k ∈ range n, npRfft n a k * npRfft n b k * rootPow n ((k : ℤ) * m) =
        ∑ j ∈ range n, ∑ i ∈ range n, ((b j : ℂ) * a i) * rootPow n ((k : ℤ) * (m - i - j)) := by
      intro k _
      unfold npRfft
      rw [Finset.sum_mul_sum, Finset.sum_comm, Finset.sum_mul]
      refine Finset.sum_congr rfl fun j _ => ?_
      rw [Finset.sum_mul]
      refine Finset.sum_congr rfl fun i _ => ?_
      have : (k : ℤ) * (m - i - j) = -((k : ℤ) * i) + -((k : ℤ) * j) + (k : ℤ) * m := by ring
      rw [this, rootPow_add, rootPow_add]
      ring
    rw [Finset.sum_congr rfl e1, Finset.sum_comm]
    push_cast
    rw [Finset.sum_mul]
    refine Finset.sum_congr rfl fun j hj => ?_
    have hj := Finset.mem_range.1 hj
    rw [Finset.sum_comm]
    have e2 : ∀ i ∈ range n, ∑ k ∈ range n, ((b j : ℂ) * a i) * rootPow n ((k : ℤ) * (m - i - j)) =
        if i = (m + n - j) % n then (b j : ℂ) * a i * n else 0 := by
      intro i hi
      have hi := Finset.mem_range.1 hi
      rw [← Finset.mul_sum, rootPow_sum hn]
      have : ((n : ℤ) ∣ (m - i - j : ℤ)) ↔ i = (m + n - j) % n := by
        constructor
        · rintro ⟨q, hq⟩
          have h1 : (m + n - j : ℕ) = i + n * (q + 1).toNat := by
            have h2 : (0 : ℤ) ≤ q + 1 := by
              by_contra hlt
              have : q + 1 ≤ -1 := by omega
              nlinarith
            have : ((m + n - j : ℕ) : ℤ) = ((i + n * (q + 1).toNat : ℕ) : ℤ) := by
              push_cast [show j ≤ m + n by omega]
              rw [Int.toNat_of_nonneg h2]; linarith
            exact_mod_cast this
          rw [h1, Nat.add_mul_mod_self_left, Nat.mod_eq_of_lt hi]
        · intro h
          have h1 := Nat.div_add_mod (m + n - j) n
          rw [← h] at h1
          generalize (m + n - j) / n = q at h1
          have h2 : ((m + n - j : ℕ) : ℤ) = (n : ℤ) * q + i := by exact_mod_cast h1.symm
          push_cast [show j ≤ m + n by omega] at h2
          exact ⟨(q : ℤ) - 1, by linarith⟩
      by_cases h : i = (m + n - j) % n
      · rw [if_pos h, if_pos (this.2 h)]
      · rw [if_neg h, if_neg (fun h' => h (this.1 h')), mul_zero]
    rw [Finset.sum_congr rfl e2, Finset.sum_ite_eq' , if_pos]
    exact Finset.mem_range.2 (Nat.mod_lt _ hn)
  rw [key, Complex.ofReal_re]

end Mica
