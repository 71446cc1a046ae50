import Verif.Model.Progress
import Mathlib.Data.Nat.Digits.Defs
import Mathlib.Tactic.Linarith
import Mathlib.Tactic.NormNum
import Mathlib.Tactic.Positivity
import Mathlib.Tactic.FieldSimp
import Mathlib.Tactic.Ring

/-!
# Helper lemmas for the progress bar
-/

namespace Mica

theorem barLoop_eq (symbol : Char) (z : ℤ) : ∀ (k i : ℕ) (s : List Char), s.length + k < 256 →
    barLoop symbol z i k s = .ok (s ++ (List.range' i k).map fun (j : ℕ) => if (j : ℤ) < z then symbol else ' ') := by
  intro k
  induction k with
  | zero => intro i s _; simp [barLoop]
  | succ k ih =>
    intro i s h
    rw [barLoop, catTo, if_pos (by simp; omega), Res.ok_bind, ih _ _ (by simp; omega), List.range'_succ]
    simp

theorem bar_chars (n : ℕ) (z : ℕ) :
    (List.range' 0 n).map (fun (j : ℕ) => if (j : ℤ) < (z : ℤ) then '#' else ' ') =
      List.replicate (min z n) '#' ++ List.replicate (n - min z n) ' ' := by
  apply List.ext_getElem
  · simp
  · intro i h1 h2
    simp only [List.length_map, List.length_range'] at h1
    simp only [List.getElem_map, List.getElem_range', List.getElem_append, List.length_replicate, List.getElem_replicate]
    by_cases h : i < z
    · rw [if_pos (by omega), dif_pos (by omega)]
    · rw [if_neg (by omega), dif_neg (by omega)]

theorem fmtInt_nat (n : ℕ) : fmtInt (n : ℤ) = Nat.toDigits 10 n := by
  rw [fmtInt, if_neg (by omega), Int.natAbs_natCast]

theorem digits_len {n e : ℕ} (he : 0 < e) (h : n < 10 ^ e) : (Nat.toDigits 10 n).length ≤ e :=
  Nat.toDigits_length 10 n e he h

theorem asInt32_small {n : ℕ} (h : n < 2 ^ 31) : asInt32 n = n := by
  have : n % 2 ^ 32 = n := Nat.mod_eq_of_lt (by omega)
  rw [asInt32, this, if_pos h]

/-- Every result of `float` arithmetic is right to 24 binary digits. -/
def Accurate (r : ℝ → ℝ) : Prop := ∀ x, |r x - x| ≤ |x| / 2 ^ 24

theorem Accurate.le {r : ℝ → ℝ} (h : Accurate r) {x : ℝ} (hx : 0 ≤ x) :
    (1 - 1 / 2 ^ 24) * x ≤ r x ∧ r x ≤ (1 + 1 / 2 ^ 24) * x := by
  have := abs_le.1 (h x)
  rw [abs_of_nonneg hx] at this
  constructor <;> linarith [this.1, this.2]

/-- The quotient behind the length of the bar. -/
theorem scaled_near {r : ℝ → ℝ} (h : Accurate r) {p t : ℝ} (hp : 0 ≤ p) (ht : 0 < t) :
    0 < r t ∧ (1 - 1 / 10 ^ 6) * (50 * p / t) ≤ r (r (r p * r 50) / r t) ∧
      r (r (r p * r 50) / r t) ≤ (1 + 1 / 10 ^ 6) * (50 * p / t) := by
  obtain ⟨p1, p2⟩ := h.le hp
  obtain ⟨f1, f2⟩ := h.le (x := 50) (by norm_num)
  obtain ⟨t1, t2⟩ := h.le ht.le
  have hrt : 0 < r t := lt_of_lt_of_le (by positivity : (0 : ℝ) < (1 - 1 / 2 ^ 24) * t) t1
  have hrp : 0 ≤ r p := le_trans (by positivity : (0 : ℝ) ≤ (1 - 1 / 2 ^ 24) * p) p1
  have hr5 : 0 ≤ r 50 := le_trans (by norm_num) f1
  have hm0 : 0 ≤ r p * r 50 := mul_nonneg hrp hr5
  obtain ⟨m1, m2⟩ := h.le hm0
  have hm : 0 ≤ r (r p * r 50) := le_trans (by positivity : (0 : ℝ) ≤ (1 - 1 / 2 ^ 24) * (r p * r 50)) m1
  obtain ⟨q1, q2⟩ := h.le (div_nonneg hm hrt.le)
  have a1 : (1 - 1 / 2 ^ 24) * p * ((1 - 1 / 2 ^ 24) * 50) ≤ r p * r 50 :=
    mul_le_mul p1 f1 (by norm_num) hrp
  have a2 : r p * r 50 ≤ (1 + 1 / 2 ^ 24) * p * ((1 + 1 / 2 ^ 24) * 50) :=
    mul_le_mul p2 f2 hr5 (by positivity)
  have b1 : (1 - 1 / 2 ^ 24) * ((1 - 1 / 2 ^ 24) * p * ((1 - 1 / 2 ^ 24) * 50)) / ((1 + 1 / 2 ^ 24) * t) ≤
      r (r p * r 50) / r t :=
    div_le_div₀ hm (le_trans (mul_le_mul_of_nonneg_left a1 (by norm_num)) m1) hrt t2
  have b2 : r (r p * r 50) / r t ≤
      (1 + 1 / 2 ^ 24) * ((1 + 1 / 2 ^ 24) * p * ((1 + 1 / 2 ^ 24) * 50)) / ((1 - 1 / 2 ^ 24) * t) :=
    div_le_div₀ (by positivity) (le_trans m2 (mul_le_mul_of_nonneg_left a2 (by norm_num))) (by positivity) t1
  have hpt : 0 ≤ 50 * p / t := by positivity
  refine ⟨hrt, le_trans ?_ q1, le_trans q2 ?_⟩
  · refine le_trans ?_ (mul_le_mul_of_nonneg_left b1 (by norm_num))
    have : (1 - 1 / 2 ^ 24 : ℝ) * ((1 - 1 / 2 ^ 24) * ((1 - 1 / 2 ^ 24) * p * ((1 - 1 / 2 ^ 24) * 50)) / ((1 + 1 / 2 ^ 24) * t)) =
        ((1 - 1 / 2 ^ 24) ^ 4 / (1 + 1 / 2 ^ 24)) * (50 * p / t) := by
      field_simp
    rw [this]
    exact mul_le_mul_of_nonneg_right (by norm_num) hpt
  · refine le_trans (mul_le_mul_of_nonneg_left b2 (by norm_num)) ?_
    have : (1 + 1 / 2 ^ 24 : ℝ) * ((1 + 1 / 2 ^ 24) * ((1 + 1 / 2 ^ 24) * p * ((1 + 1 / 2 ^ 24) * 50)) / ((1 - 1 / 2 ^ 24) * t)) =
        ((1 + 1 / 2 ^ 24) ^ 4 / (1 - 1 / 2 ^ 24)) * (50 * p / t) := by
      field_simp
    rw [this]
    exact mul_le_mul_of_nonneg_right (by norm_num) hpt

theorem format_eq (bar pct cnt : List Char) (sc : Bool) (h : bar.length + pct.length + cnt.length < 500) :
    formatLoop bar pct cnt true sc "{bar} {percent} {count}".toList [] =
      .ok (bar ++ ' ' :: (pct ++ ' ' :: if sc then cnt else [])) := by
  have c1 : ∀ out t : List Char, out.length + t.length < 512 → catTo 512 out t = .ok (out ++ t) :=
    fun out t h => if_pos h
  cases sc
  · simp [formatLoop, List.isPrefixOf]
    rw [c1 _ _ (by simp; omega)]
    simp only [Res.ok_bind]
    rw [c1 _ _ (by simp; omega)]
    simp only [Res.ok_bind]
    rw [c1 _ _ (by simp; omega)]
    simp only [Res.ok_bind]
    rw [c1 _ _ (by simp; omega)]
    simp
  · simp [formatLoop, List.isPrefixOf]
    rw [c1 _ _ (by simp; omega)]
    simp only [Res.ok_bind]
    rw [c1 _ _ (by simp; omega)]
    simp only [Res.ok_bind]
    rw [c1 _ _ (by simp; omega)]
    simp only [Res.ok_bind]
    rw [c1 _ _ (by simp; omega)]
    simp only [Res.ok_bind]
    rw [c1 _ _ (by simp; omega)]
    simp

end Mica
