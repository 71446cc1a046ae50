import Verif.Proof.SciText
import Verif.Proof.ParNames

/-!
# Lemmas on `%.6f`, `%e` and `%lf`
-/

namespace Mica

/-- `%lf` of a decimal number in front of a blank or the end. -/
theorem scanLf_dec (neg : Bool) {ip fr a r : List Char} (hip : ip ≠ []) (hid : ∀ c ∈ ip, c.isDigit = true)
    (hfd : ∀ c ∈ fr, c.isDigit = true) (ha : ∀ c ∈ a, isSpaceC c = true) (hr : r = [] ∨ ∃ s, r = ' ' :: s) :
    scanLf (a ++ ((if neg then ['-'] else []) ++ (ip ++ '.' :: (fr ++ r)))) =
      some ((if neg then -1 else 1) * ((digitsVal (ip ++ fr) : ℝ) * (10 : ℝ) ^ (-(fr.length : ℤ))), r) := by
  obtain ⟨c, s, rfl⟩ := List.exists_cons_of_ne_nil hip
  have hc := hid c (by simp)
  have h1 : c ≠ '-' := by rintro rfl; exact absurd hc (by decide)
  have h2 : c ≠ '+' := by rintro rfl; exact absurd hc (by decide)
  have hnr : NoDigit r := by
    intro c' s' h
    rcases hr with rfl | ⟨s, rfl⟩
    · cases h
    · rw [← (List.cons.inj h).1]; decide
  have hsk : skipSpace (a ++ ((if neg then ['-'] else []) ++ (c :: s ++ '.' :: (fr ++ r)))) =
      (if neg then ['-'] else []) ++ (c :: s ++ '.' :: (fr ++ r)) := by
    rw [skipSpace_append ha]
    cases neg
    · simp [skipSpace, isDigit_not_space hc]
    · simp [skipSpace, isSpaceC]
  have hsg : takeSign ((if neg then ['-'] else []) ++ (c :: s ++ '.' :: (fr ++ r))) = (neg, c :: s ++ '.' :: (fr ++ r)) := by
    cases neg
    · simp only [Bool.false_eq_true, if_false, List.nil_append, List.cons_append, takeSign]
      split
      · rename_i heq; exact absurd (List.cons.inj heq).1 h1
      · rename_i heq; exact absurd (List.cons.inj heq).1 h2
      · rfl
    · rfl
  have hsp := span_digits (r := '.' :: (fr ++ r)) hid (by
    intro c' s' h; rw [← (List.cons.inj h).1]; decide)
  have hs2 := span_digits hfd hnr
  have hex : takeExpo r = some (0, r) := by
    rcases hr with rfl | ⟨s, rfl⟩ <;> simp [takeExpo]
  unfold scanLf
  simp only [hsk, hsg, hsp.1, hsp.2, takeFrac, hs2.1, hs2.2, hex, List.cons_ne_nil, false_and, if_false, zero_sub]

/-- `%.6f` is read by `%lf`. -/
theorem scanLf_fmt6_ws (x : ℝ) {a r : List Char} (ha : ∀ c ∈ a, isSpaceC c = true) (hr : r = [] ∨ ∃ s, r = ' ' :: s) :
    scanLf (a ++ (fmt6 x ++ r)) = some (rd6 x, r) := by
  have hdig : ∀ n : ℕ, ∀ c ∈ Nat.toDigits 10 n, c.isDigit = true := fun n c hc =>
    Nat.isDigit_of_mem_toDigits (by norm_num) (by norm_num) hc
  have hl : (List.replicate (6 - (Nat.toDigits 10 (micro x % 10 ^ 6)).length) '0' ++
      Nat.toDigits 10 (micro x % 10 ^ 6)).length = 6 := by
    have := Nat.toDigits_length 10 (micro x % 10 ^ 6) 6 (by norm_num) (Nat.mod_lt _ (by norm_num))
    rw [List.length_append, List.length_replicate]; omega
  have hv := digitsVal_zeros (6 - (Nat.toDigits 10 (micro x % 10 ^ 6)).length) (Nat.toDigits 10 (micro x % 10 ^ 6))
  rw [digitsVal_toDigits] at hv
  have hf : ∀ c ∈ List.replicate (6 - (Nat.toDigits 10 (micro x % 10 ^ 6)).length) '0' ++
      Nat.toDigits 10 (micro x % 10 ^ 6), c.isDigit = true := by
    intro c hc
    rcases List.mem_append.1 hc with h | h
    · rw [List.eq_of_mem_replicate h]; decide
    · exact hdig _ c h
  unfold fmt6
  generalize List.replicate (6 - (Nat.toDigits 10 (micro x % 10 ^ 6)).length) '0' ++
      Nat.toDigits 10 (micro x % 10 ^ 6) = fr at hl hf hv ⊢
  have key := scanLf_dec (decide (x < 0)) (ip := Nat.toDigits 10 (micro x / 10 ^ 6)) (fr := fr) (a := a) (r := r)
    Nat.toDigits_ne_nil (hdig _) hf ha hr
  rw [digitsVal_append, hl, hv, digitsVal_toDigits, Nat.div_add_mod'] at key
  simp only [decide_eq_true_eq] at key
  simp only [List.append_assoc, List.cons_append]
  rw [key]
  congr 2
  unfold rd6
  have e : (10 : ℝ) ^ (-((6 : ℕ) : ℤ)) = 1 / 10 ^ 6 := by norm_num
  rw [e]
  split <;> ring

theorem scanLf_fmt6 : ReadsBack scanLf fmt6 rd6 :=
  ⟨readsBack_fmt6.word, fun x a r ha hr => scanLf_fmt6_ws x (fun c hc => by rw [ha c hc]; decide) hr⟩

/-- `%e` is read by `%lf`. -/
theorem scanLf_sci (p : ℕ) : ReadsBack scanLf (sciText p) (sciVal p) := by
  refine ⟨fun x => ⟨by simp [sciText], fun c hc => ?_⟩, fun x a r ha hr => scanLf_text p x (fun c hc => by rw [ha c hc]; decide) ?_⟩
  · have hd : ∀ k m, ∀ c ∈ lastDigits k m, isSpaceC c = false := fun k m c hc => isDigit_not_space ((lastDigits_spec k m).2.1 c hc)
    unfold sciText at hc
    rcases List.mem_append.1 hc with hc | hc
    · split at hc
      · rw [List.mem_singleton.1 hc]; decide
      · simp at hc
    rcases List.mem_append.1 hc with hc | hc
    · exact hd _ _ c hc
    rcases List.mem_append.1 hc with hc | hc
    · split at hc
      · simp at hc
      · rcases List.mem_cons.1 hc with rfl | hc
        · decide
        · exact hd _ _ c hc
    · rcases List.mem_cons.1 hc with rfl | hc
      · decide
      · obtain ⟨d, -, hdd, -, he⟩ := sciExpo_spec (sciParts p |x|).2
        rw [he] at hc
        rcases List.mem_cons.1 hc with rfl | hc
        · split <;> decide
        · exact isDigit_not_space (hdd c hc)
  · intro c s h
    rcases hr with rfl | ⟨s, rfl⟩
    · cases h
    · rw [← (List.cons.inj h).1]; decide

/-- Numbers whose exponents have at most three digits, as all numbers of type `double`. -/
def ThreeDigitExp (x : ℝ) : Prop := x = 0 ∨ (10 : ℝ) ^ (-999 : ℤ) ≤ |x| ∧ |x| < (10 : ℝ) ^ (999 : ℤ)

theorem sciExpo_length {p : ℕ} {x : ℝ} (h : ThreeDigitExp x) : (sciExpo (sciParts p |x|).2).length ≤ 4 := by
  have he : (sciParts p |x|).2.natAbs < 1000 := by
    rcases h with rfl | ⟨h1, h2⟩
    · simp [sciParts]
    · have hx : 0 < |x| := lt_of_lt_of_le (by positivity) h1
      have h3 : -999 ≤ Int.log 10 |x| := (Int.zpow_le_iff_le_log (b := 10) (by norm_num) hx).1 (by exact_mod_cast h1)
      have h4 : Int.log 10 |x| < 999 := (Int.lt_zpow_iff_log_lt (b := 10) (by norm_num) hx).1 (by exact_mod_cast h2)
      unfold sciParts
      rw [if_neg hx.ne']
      split <;> simp only <;> omega
  rw [sciExpo, List.length_cons, List.length_append]
  split
  · rename_i h
    have := Nat.toDigits_length 10 (sciParts p |x|).2.natAbs 1 (by norm_num) (by simpa using h)
    simp only [List.length_singleton]; omega
  · have := Nat.toDigits_length 10 (sciParts p |x|).2.natAbs 3 (by norm_num) (by simpa using he)
    simp only [List.length_nil]; omega

theorem sciText_length3 {p : ℕ} {x : ℝ} (h : ThreeDigitExp x) : (sciText p x).length ≤ p + 8 := by
  have hd := sciExpo_length (p := p) h
  have h1 := (lastDigits_spec 1 ((sciParts p |x|).1 / 10 ^ p)).1
  have h2 := (lastDigits_spec p ((sciParts p |x|).1 % 10 ^ p)).1
  rw [sciText, List.length_append, List.length_append, List.length_append, h1, List.length_cons]
  have h3 : (if x < 0 then ['-'] else []).length ≤ 1 := by split <;> simp
  have h4 : (if p = 0 then [] else '.' :: lastDigits p ((sciParts p |x|).1 % 10 ^ p)).length ≤ p + 1 := by
    split
    · simp
    · simp [h2]
  omega

end Mica
