import Verif.Model.SciText
import Verif.Proof.Data
import Mathlib.Tactic.Positivity
import Mathlib.Analysis.SpecialFunctions.Log.Base
import Mathlib.Tactic.FieldSimp
import Mathlib.Tactic.NormNum

namespace Mica

/-! ### Rounding -/

theorem rne_near {y : ℝ} (h : 0 ≤ y) : |(rne y : ℝ) - y| ≤ 1 / 2 := by
  have h1 := Nat.floor_le h
  have h2 := Nat.lt_floor_add_one y
  rw [abs_le]
  unfold rne
  split
  · constructor <;> linarith
  · split
    · push_cast; constructor <;> linarith
    · split
      · constructor <;> linarith
      · push_cast; constructor <;> linarith

theorem rne_floor (y : ℝ) : ⌊y⌋₊ ≤ rne y ∧ rne y ≤ ⌊y⌋₊ + 1 := by
  unfold rne
  split
  · omega
  · split
    · omega
    · split <;> omega

theorem rne_mono {y z : ℝ} (h : y ≤ z) : rne y ≤ rne z := by
  have hf := Nat.floor_mono h
  rcases hf.lt_or_eq with hlt | heq
  · have := (rne_floor y).2
    have := (rne_floor z).1
    omega
  · unfold rne
    rw [← heq]
    by_cases h1 : y - ⌊y⌋₊ < 1 / 2
    · rw [if_pos h1]
      split
      · exact le_rfl
      · split
        · omega
        · split <;> omega
    · rw [if_neg h1, if_neg (by linarith : ¬z - ⌊y⌋₊ < 1 / 2)]
      by_cases h2 : 1 / 2 < y - ⌊y⌋₊
      · rw [if_pos h2, if_pos (by linarith)]
      · rw [if_neg h2]
        split <;> split <;> omega

theorem rne_nat (n : ℕ) : rne (n : ℝ) = n := by
  unfold rne
  rw [Nat.floor_natCast, if_pos (by norm_num)]

/-! ### The value of the text -/

/-- The number that is printed for `y ≥ 0`. -/
noncomputable def sciAbs (p : ℕ) (y : ℝ) : ℝ := ((sciParts p y).1 : ℝ) * (10 : ℝ) ^ ((sciParts p y).2 - p)

/-- The number that is printed. -/
noncomputable def sciVal (p : ℕ) (x : ℝ) : ℝ := (if x < 0 then -1 else 1) * sciAbs p |x|

theorem sciAbs_zero (p : ℕ) : sciAbs p 0 = 0 := by simp [sciAbs, sciParts]

theorem sciAbs_pos {p : ℕ} {y : ℝ} (h : 0 < y) :
    sciAbs p y = (rne (y / (10 : ℝ) ^ (Int.log 10 y - p)) : ℝ) * (10 : ℝ) ^ (Int.log 10 y - p) := by
  unfold sciAbs sciParts
  rw [if_neg h.ne']
  split
  · rename_i h1
    rw [h1]
    push_cast
    rw [show Int.log 10 y + 1 - (p : ℤ) = (Int.log 10 y - p) + 1 by ring, zpow_add₀ (by norm_num)]
    ring
  · rfl

/-- The scaled number has `p + 1` digits before the point. -/
theorem sci_scaled {p : ℕ} {y : ℝ} (h : 0 < y) :
    ((10 ^ p : ℕ) : ℝ) ≤ y / (10 : ℝ) ^ (Int.log 10 y - p) ∧ y / (10 : ℝ) ^ (Int.log 10 y - p) < ((10 ^ (p + 1) : ℕ) : ℝ) := by
  have h1 := Int.zpow_log_le_self (b := 10) (r := y) (by norm_num) h
  have h2 := Int.lt_zpow_succ_log_self (b := 10) (by norm_num) y
  have hp : (0 : ℝ) < (10 : ℝ) ^ (Int.log 10 y - p) := by positivity
  push_cast at h1 h2 ⊢
  constructor
  · rw [le_div_iff₀ hp, ← zpow_natCast (10 : ℝ) p, ← zpow_add₀ (by norm_num)]
    rwa [show (p : ℤ) + (Int.log 10 y - p) = Int.log 10 y by ring]
  · rw [div_lt_iff₀ hp, ← zpow_natCast (10 : ℝ) (p + 1), ← zpow_add₀ (by norm_num)]
    push_cast
    rwa [show (p : ℤ) + 1 + (Int.log 10 y - p) = Int.log 10 y + 1 by ring]

theorem sci_rne {p : ℕ} {y : ℝ} (h : 0 < y) :
    10 ^ p ≤ rne (y / (10 : ℝ) ^ (Int.log 10 y - p)) ∧ rne (y / (10 : ℝ) ^ (Int.log 10 y - p)) ≤ 10 ^ (p + 1) := by
  have h1 := rne_mono (sci_scaled (p := p) h).1
  have h2 := rne_mono (sci_scaled (p := p) h).2.le
  rw [rne_nat] at h1 h2
  exact ⟨h1, h2⟩

/-- There is one digit before the point; it is zero only for zero. -/
theorem sciParts_bounds {p : ℕ} {y : ℝ} (h : 0 < y) : 10 ^ p ≤ (sciParts p y).1 ∧ (sciParts p y).1 < 10 ^ (p + 1) := by
  have h1 := sci_rne (p := p) h
  unfold sciParts
  rw [if_neg h.ne']
  split
  · exact ⟨le_rfl, Nat.pow_lt_pow_right (by norm_num) (by omega)⟩
  · exact ⟨h1.1, by omega⟩

theorem sciParts_lt {p : ℕ} {y : ℝ} (h : 0 ≤ y) : (sciParts p y).1 < 10 ^ (p + 1) := by
  rcases h.lt_or_eq with h | h
  · exact (sciParts_bounds h).2
  · rw [← h]; simp [sciParts]

/-- Half a unit of the last digit. -/
theorem sciAbs_near_abs {p : ℕ} {y : ℝ} (h : 0 < y) : |sciAbs p y - y| ≤ 1 / 2 * (10 : ℝ) ^ (Int.log 10 y - p) := by
  have hp : (0 : ℝ) < (10 : ℝ) ^ (Int.log 10 y - p) := by positivity
  have h1 := rne_near (y := y / (10 : ℝ) ^ (Int.log 10 y - p)) (by positivity)
  rw [sciAbs_pos h]
  have e : (rne (y / (10 : ℝ) ^ (Int.log 10 y - p)) : ℝ) * (10 : ℝ) ^ (Int.log 10 y - p) - y =
      ((rne (y / (10 : ℝ) ^ (Int.log 10 y - p)) : ℝ) - y / (10 : ℝ) ^ (Int.log 10 y - p)) * (10 : ℝ) ^ (Int.log 10 y - p) := by
    rw [sub_mul, div_mul_cancel₀ _ hp.ne']
  rw [e, abs_mul, abs_of_pos hp]
  exact mul_le_mul_of_nonneg_right h1 hp.le

theorem sciAbs_near {p : ℕ} {y : ℝ} (h : 0 ≤ y) : |sciAbs p y - y| ≤ 1 / 2 * (10 : ℝ) ^ (-(p : ℤ)) * y := by
  rcases h.lt_or_eq with h | h
  · refine (sciAbs_near_abs h).trans ?_
    have h1 := Int.zpow_log_le_self (b := 10) (r := y) (by norm_num) h
    push_cast at h1
    rw [show Int.log 10 y - (p : ℤ) = -(p : ℤ) + Int.log 10 y by ring, zpow_add₀ (by norm_num), ← mul_assoc]
    exact mul_le_mul_of_nonneg_left h1 (by positivity)
  · rw [← h, sciAbs_zero]; simp

theorem sciAbs_nonneg (p : ℕ) (y : ℝ) : 0 ≤ sciAbs p y := by unfold sciAbs; positivity

theorem sciAbs_mono {p : ℕ} {y z : ℝ} (h0 : 0 ≤ y) (h : y ≤ z) : sciAbs p y ≤ sciAbs p z := by
  rcases h0.lt_or_eq with h0 | h0
  swap
  · rw [← h0, sciAbs_zero]; exact sciAbs_nonneg _ _
  have hz := h0.trans_le h
  have hl : Int.log 10 y ≤ Int.log 10 z := Int.log_mono_right h0 h
  rw [sciAbs_pos h0, sciAbs_pos hz]
  rcases hl.lt_or_eq with hl | hl
  · have h1 := (sci_rne (p := p) h0).2
    have h2 := (sci_rne (p := p) hz).1
    calc (rne (y / (10 : ℝ) ^ (Int.log 10 y - p)) : ℝ) * (10 : ℝ) ^ (Int.log 10 y - p)
        ≤ ((10 ^ (p + 1) : ℕ) : ℝ) * (10 : ℝ) ^ (Int.log 10 y - p) :=
          mul_le_mul_of_nonneg_right (by exact_mod_cast h1) (by positivity)
      _ = (10 : ℝ) ^ (Int.log 10 y + 1) := by
          push_cast
          rw [← zpow_natCast (10 : ℝ) (p + 1), ← zpow_add₀ (by norm_num)]
          congr 1; push_cast; ring
      _ ≤ (10 : ℝ) ^ (Int.log 10 z) := zpow_le_zpow_right₀ (by norm_num) (by omega)
      _ = ((10 ^ p : ℕ) : ℝ) * (10 : ℝ) ^ (Int.log 10 z - p) := by
          push_cast
          rw [← zpow_natCast (10 : ℝ) p, ← zpow_add₀ (by norm_num)]
          congr 1; ring
      _ ≤ _ := mul_le_mul_of_nonneg_right (by exact_mod_cast h2) (by positivity)
  · rw [hl]
    refine mul_le_mul_of_nonneg_right ?_ (by positivity)
    exact_mod_cast rne_mono (div_le_div_of_nonneg_right h (by positivity))

/-- Rounding keeps the order. -/
theorem sciVal_mono {p : ℕ} {x y : ℝ} (h : x ≤ y) : sciVal p x ≤ sciVal p y := by
  unfold sciVal
  rcases lt_or_ge x 0 with hx | hx
  · rcases lt_or_ge y 0 with hy | hy
    · rw [if_pos hx, if_pos hy, abs_of_neg hx, abs_of_neg hy]
      have := sciAbs_mono (p := p) (y := -y) (z := -x) (by linarith) (by linarith)
      linarith
    · rw [if_pos hx, if_neg (by linarith)]
      have := sciAbs_nonneg p |x|
      have := sciAbs_nonneg p |y|
      linarith
  · rw [if_neg (by linarith), if_neg (by linarith), abs_of_nonneg hx, abs_of_nonneg (hx.trans h)]
    have := sciAbs_mono (p := p) hx h
    linarith

/-- Relative accuracy. -/
theorem sciVal_near (p : ℕ) (x : ℝ) : |sciVal p x - x| ≤ 1 / 2 * (10 : ℝ) ^ (-(p : ℤ)) * |x| := by
  have h := sciAbs_near (p := p) (abs_nonneg x)
  unfold sciVal
  split
  · rename_i hx
    rw [abs_of_neg hx] at h ⊢
    rw [show -1 * sciAbs p (-x) - x = -(sciAbs p (-x) - -x) by ring, abs_neg]
    exact h
  · rename_i hx
    rw [abs_of_nonneg (not_lt.1 hx)] at h ⊢
    rwa [one_mul]

/-- Half a unit of the last digit of any larger number. -/
theorem sciVal_near_abs {p : ℕ} {x : ℝ} {L : ℤ} (h : |x| < (10 : ℝ) ^ (L + 1)) :
    |sciVal p x - x| ≤ 1 / 2 * (10 : ℝ) ^ (L - p) := by
  have key : ∀ y : ℝ, 0 ≤ y → y < (10 : ℝ) ^ (L + 1) → |sciAbs p y - y| ≤ 1 / 2 * (10 : ℝ) ^ (L - p) := by
    intro y h0 hy
    rcases h0.lt_or_eq with h0 | h0
    · refine (sciAbs_near_abs h0).trans (mul_le_mul_of_nonneg_left (zpow_le_zpow_right₀ (by norm_num) ?_) (by norm_num))
      have h1 := Int.zpow_log_le_self (b := 10) (r := y) (by norm_num) h0
      push_cast at h1
      have := (zpow_lt_zpow_iff_right₀ (by norm_num : (1 : ℝ) < 10)).1 (h1.trans_lt hy)
      omega
    · rw [← h0, sciAbs_zero]
      simp only [sub_zero, abs_zero]
      positivity
  have := key |x| (abs_nonneg x) h
  unfold sciVal
  split
  · rename_i hx
    rw [abs_of_neg hx] at this ⊢
    rw [show -1 * sciAbs p (-x) - x = -(sciAbs p (-x) - -x) by ring, abs_neg]
    exact this
  · rename_i hx
    rw [abs_of_nonneg (not_lt.1 hx)] at this ⊢
    rwa [one_mul]

/-! ### Reading the text -/

theorem digitsVal_append (a b : List Char) : digitsVal (a ++ b) = digitsVal a * 10 ^ b.length + digitsVal b := by
  induction b using List.reverseRecOn with
  | nil => simp [digitsVal]
  | append_singleton b c ih =>
    have h : ∀ l : List Char, digitsVal (l ++ [c]) = digitsVal l * 10 + (c.toNat - '0'.toNat) := by
      intro l; simp [digitsVal, List.foldl_append]
    rw [← List.append_assoc, h, h, ih, List.length_append, List.length_singleton, pow_succ]
    ring

theorem digitChar_digit {d : ℕ} (h : d < 10) : (Nat.digitChar d).isDigit = true ∧ (Nat.digitChar d).toNat - '0'.toNat = d := by
  revert d; decide

theorem lastDigits_spec (k m : ℕ) : (lastDigits k m).length = k ∧ (∀ c ∈ lastDigits k m, c.isDigit = true) ∧
    digitsVal (lastDigits k m) = m % 10 ^ k := by
  induction k generalizing m with
  | zero => simp [lastDigits, digitsVal, Nat.mod_one]
  | succ k ih =>
    obtain ⟨h1, h2, h3⟩ := ih (m / 10)
    have hd := digitChar_digit (d := m % 10) (Nat.mod_lt _ (by norm_num))
    refine ⟨by simp [lastDigits, h1], fun c hc => ?_, ?_⟩
    · rcases List.mem_append.1 hc with hc | hc
      · exact h2 c hc
      · rw [List.mem_singleton.1 hc]; exact hd.1
    · rw [lastDigits, digitsVal_append, h3]
      have : digitsVal [Nat.digitChar (m % 10)] = m % 10 := by
        simpa [digitsVal] using hd.2
      rw [this, List.length_singleton, pow_one, pow_succ, Nat.mul_comm (10 ^ k) 10, Nat.mod_mul]
      ring

theorem span_digits {d r : List Char} (hd : ∀ c ∈ d, c.isDigit = true) (hr : NoDigit r) :
    (d ++ r).takeWhile Char.isDigit = d ∧ (d ++ r).dropWhile Char.isDigit = r := by
  rw [List.takeWhile_append_of_pos hd, List.dropWhile_append_of_pos hd]
  cases r with
  | nil => simp
  | cons c s => simp [hr c s rfl]

theorem sciExpo_spec (e : ℤ) : ∃ d : List Char, d ≠ [] ∧ (∀ c ∈ d, c.isDigit = true) ∧ digitsVal d = e.natAbs ∧
    sciExpo e = (if e < 0 then '-' else '+') :: d := by
  refine ⟨_, ?_, ?_, ?_, rfl⟩
  · intro h; simp [Nat.toDigits_ne_nil] at h
  · intro c hc
    rcases List.mem_append.1 hc with hc | hc
    · split at hc
      · rw [List.mem_singleton.1 hc]; decide
      · simp at hc
    · exact Nat.isDigit_of_mem_toDigits (by norm_num) (by norm_num) hc
  · rw [digitsVal_append, digitsVal_toDigits]
    split <;> simp [digitsVal]

theorem takeExpo_text (e : ℤ) {r : List Char} (hr : NoDigit r) : takeExpo ('e' :: (sciExpo e ++ r)) = some (e, r) := by
  obtain ⟨d, hd, hdig, hv, he⟩ := sciExpo_spec e
  have hs := span_digits hdig hr
  have ht : takeSign (sciExpo e ++ r) = (decide (e < 0), d ++ r) := by
    rw [he]
    by_cases h : e < 0 <;> simp [h, takeSign]
  unfold takeExpo
  simp only [true_or, if_true, ht, hs.1, hs.2, hd, if_false, hv]
  by_cases h : e < 0
  · simp only [h, decide_true, if_true]
    congr 2; omega
  · simp only [h, decide_false, Bool.false_eq_true, if_false]
    congr 2; omega

/-- A printed number is read back as the number printed. -/
theorem scanLf_text (p : ℕ) (x : ℝ) {a r : List Char} (ha : ∀ c ∈ a, isSpaceC c = true) (hr : NoDigit r) :
    scanLf (a ++ (sciText p x ++ r)) = some (sciVal p x, r) := by
  set m := (sciParts p |x|).1 with hm
  set e := (sciParts p |x|).2 with he
  have hlt : m < 10 ^ (p + 1) := sciParts_lt (abs_nonneg x)
  obtain ⟨i1, i2, i3⟩ := lastDigits_spec 1 (m / 10 ^ p)
  obtain ⟨f1, f2, f3⟩ := lastDigits_spec p (m % 10 ^ p)
  have hi : digitsVal (lastDigits 1 (m / 10 ^ p)) = m / 10 ^ p := by
    rw [i3, pow_one, Nat.mod_eq_of_lt]
    rw [Nat.div_lt_iff_lt_mul (by positivity), ← pow_succ']; exact hlt
  have hf : digitsVal (lastDigits p (m % 10 ^ p)) = m % 10 ^ p := by
    rw [f3, Nat.mod_mod]
  have hine : lastDigits 1 (m / 10 ^ p) ≠ [] := by
    intro h; rw [h] at i1; simp at i1
  set tail := (if p = 0 then [] else '.' :: lastDigits p (m % 10 ^ p)) ++ 'e' :: sciExpo e with htail
  have hsk : skipSpace (a ++ (sciText p x ++ r)) = sciText p x ++ r := by
    rw [skipSpace_append ha]
    obtain ⟨c, s, hcs⟩ := List.exists_cons_of_ne_nil hine
    unfold sciText
    rw [← hm, hcs]
    by_cases h : x < 0
    · rw [if_pos h]; simp [skipSpace, isSpaceC]
    · rw [if_neg h]
      simp [skipSpace, isDigit_not_space (i2 c (by rw [hcs]; simp))]
  have hsg : takeSign (sciText p x ++ r) = (decide (x < 0), lastDigits 1 (m / 10 ^ p) ++ (tail ++ r)) := by
    obtain ⟨c, s, hcs⟩ := List.exists_cons_of_ne_nil hine
    have hc := i2 c (by rw [hcs]; simp)
    have h1 : c ≠ '-' := by rintro rfl; exact absurd hc (by decide)
    have h2 : c ≠ '+' := by rintro rfl; exact absurd hc (by decide)
    unfold sciText
    rw [← hm, ← he]
    by_cases h : x < 0
    · rw [if_pos h]
      simp [takeSign, h, htail]
    · rw [if_neg h, hcs]
      simp only [List.nil_append, List.cons_append, takeSign, h, decide_false]
      split
      · rename_i heq; exact absurd (List.cons.inj heq).1 h1
      · rename_i heq; exact absurd (List.cons.inj heq).1 h2
      · simp [htail]
  have hnd : NoDigit (tail ++ r) := by
    intro c s h
    rw [htail] at h
    split at h
    · simp only [List.nil_append, List.cons_append, List.cons.injEq] at h
      rw [← h.1]; decide
    · simp only [List.cons_append, List.cons.injEq] at h
      rw [← h.1]; decide
  have hsp := span_digits i2 hnd
  have hfr : takeFrac (tail ++ r) = (lastDigits p (m % 10 ^ p), 'e' :: (sciExpo e ++ r)) := by
    rw [htail]
    by_cases h : p = 0
    · subst h
      simp [takeFrac, lastDigits]
    · rw [if_neg h]
      have hs2 := span_digits (r := 'e' :: (sciExpo e ++ r)) f2 (by
        intro c s h; rw [← (List.cons.inj h).1]; decide)
      simp only [List.cons_append, List.append_assoc, takeFrac, hs2.1, hs2.2]
  unfold scanLf
  simp only [hsk, hsg, hsp.1, hsp.2, hfr, takeExpo_text e hr, hine, false_and, if_false]
  rw [digitsVal_append, f1, hi, hf, Nat.div_add_mod']
  congr 2
  unfold sciVal sciAbs
  by_cases h : x < 0 <;> simp [h, ← hm, ← he]

end Mica
