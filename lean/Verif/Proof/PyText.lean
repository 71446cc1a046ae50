import Verif.Proof.NumText

/-!
# Lemmas on `%f` in texts written by Python
-/

namespace Mica

/-- `%lf` of a decimal number in front of something that does not go on with it. -/
theorem scanLf_dec_stop (neg : Bool) {ip fr a r : List Char} (hip : ip ≠ []) (hid : ∀ c ∈ ip, c.isDigit = true)
    (hfd : ∀ c ∈ fr, c.isDigit = true) (ha : ∀ c ∈ a, isSpaceC c = true) (hnr : NoDigit r) (hex : takeExpo r = some (0, r)) :
    scanLf (a ++ ((if neg then ['-'] else []) ++ (ip ++ '.' :: (fr ++ r)))) =
      some ((if neg then -1 else 1) * ((digitsVal (ip ++ fr) : ℝ) * (10 : ℝ) ^ (-(fr.length : ℤ))), r) := by
  obtain ⟨c, s, rfl⟩ := List.exists_cons_of_ne_nil hip
  have hc := hid c (by simp)
  have h1 : c ≠ '-' := by rintro rfl; exact absurd hc (by decide)
  have h2 : c ≠ '+' := by rintro rfl; exact absurd hc (by decide)
  have hsk : skipSpace (a ++ ((if neg then ['-'] else []) ++ (c :: s ++ '.' :: (fr ++ r)))) =
      (if neg then ['-'] else []) ++ (c :: s ++ '.' :: (fr ++ r)) := by
    rw [skipSpace_append ha]
    cases neg
    · simp [skipSpace, isDigit_not_space hc]
    · simp [skipSpace, isSpaceC]
  have hsg : takeSign ((if neg then ['-'] else []) ++ (c :: s ++ '.' :: (fr ++ r))) = (neg, c :: s ++ '.' :: (fr ++ r)) := by
    cases neg
    · simp only [Bool.false_eq_true, if_false, List.nil_append, List.cons_append, takeSign]
      split
      · rename_i heq; exact absurd (List.cons.inj heq).1 h1
      · rename_i heq; exact absurd (List.cons.inj heq).1 h2
      · rfl
    · rfl
  have hsp := span_digits (r := '.' :: (fr ++ r)) hid (by
    intro c' s' h; rw [← (List.cons.inj h).1]; decide)
  have hs2 := span_digits hfd hnr
  unfold scanLf
  simp only [hsk, hsg, hsp.1, hsp.2, takeFrac, hs2.1, hs2.2, hex, List.cons_ne_nil, false_and, if_false, zero_sub]

/-- The parts of `%f`: digits, a point, six digits. -/
theorem fmt6_parts (x : ℝ) : ∃ ip fr : List Char, fmt6 x = (if x < 0 then ['-'] else []) ++ (ip ++ '.' :: fr) ∧ ip ≠ [] ∧
    (∀ c ∈ ip, c.isDigit = true) ∧ (∀ c ∈ fr, c.isDigit = true) ∧ fr.length = 6 ∧
    rd6 x = (if x < 0 then -1 else 1) * ((digitsVal (ip ++ fr) : ℝ) * (10 : ℝ) ^ (-(fr.length : ℤ))) := by
  have hdig : ∀ n : ℕ, ∀ c ∈ Nat.toDigits 10 n, c.isDigit = true := fun n c hc =>
    Nat.isDigit_of_mem_toDigits (by norm_num) (by norm_num) hc
  have hl : (List.replicate (6 - (Nat.toDigits 10 (micro x % 10 ^ 6)).length) '0' ++
      Nat.toDigits 10 (micro x % 10 ^ 6)).length = 6 := by
    have := Nat.toDigits_length 10 (micro x % 10 ^ 6) 6 (by norm_num) (Nat.mod_lt _ (by norm_num))
    rw [List.length_append, List.length_replicate]; omega
  have hv := digitsVal_zeros (6 - (Nat.toDigits 10 (micro x % 10 ^ 6)).length) (Nat.toDigits 10 (micro x % 10 ^ 6))
  rw [digitsVal_toDigits] at hv
  refine ⟨_, _, rfl, Nat.toDigits_ne_nil, hdig _, fun c hc => ?_, hl, ?_⟩
  · rcases List.mem_append.1 hc with h | h
    · rw [List.eq_of_mem_replicate h]; decide
    · exact hdig _ c h
  · rw [digitsVal_append, hl, hv, digitsVal_toDigits, Nat.div_add_mod']
    unfold rd6
    have e : (10 : ℝ) ^ (-((6 : ℕ) : ℤ)) = 1 / 10 ^ 6 := by norm_num
    rw [e]
    split <;> ring

/-- `%f` in front of a blank character. -/
theorem scanLf_fmt6_space (x : ℝ) {a s : List Char} {c : Char} (ha : ∀ c ∈ a, isSpaceC c = true) (hc : isSpaceC c = true) :
    scanLf (a ++ (fmt6 x ++ c :: s)) = some (rd6 x, c :: s) := by
  obtain ⟨ip, fr, e, h1, h2, h3, h4, h5⟩ := fmt6_parts x
  have hne : c ≠ 'e' ∧ c ≠ 'E' := by constructor <;> (rintro rfl; exact absurd hc (by decide))
  have := scanLf_dec_stop (decide (x < 0)) h1 h2 h3 ha (r := c :: s) (by
    intro d t hd
    rw [← (List.cons.inj hd).1]
    by_contra hn
    have := isDigit_not_space (Bool.of_not_eq_false hn)
    rw [this] at hc; exact absurd hc (by decide)) (by simp [takeExpo, hne.1, hne.2])
  simp only [decide_eq_true_eq] at this
  rw [e, h5]
  simp only [List.append_assoc, List.cons_append] at this ⊢
  exact this

end Mica
