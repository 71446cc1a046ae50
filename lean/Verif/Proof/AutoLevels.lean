import Verif.Spec.AutoLevels
import Verif.Proof.SamplerExample
import Mathlib.Analysis.SpecialFunctions.Pow.Real
import Mathlib.Analysis.SpecialFunctions.Sqrt
import Mathlib.Tactic.Linarith
import Mathlib.Tactic.FieldSimp

/-!
# The loop of `enough_levels`
-/

namespace Mica

theorem get_thresholdAt {ls : List Level} {k : ℕ} (h : k < ls.length) :
    ∃ a, Res.get ls k = .ok a ∧ a.logl.value = thresholdAt ls k := by
  refine ⟨ls[k], Res.get_eq_ok.2 (List.getElem?_eq_getElem h), ?_⟩
  unfold thresholdAt; rw [List.getElem?_eq_getElem h]

/-- The loop sums up and takes the maximum of the last `min n k` gaps below level `k`. -/
theorem enoughScan_spec (ls : List Level) (n k kc : ℕ) (tot mx : ℝ) (hk : k < ls.length)
    (hn : 0 < k) :
    ∃ mx', enoughScan ls n k kc tot mx =
        .ok (tot + (thresholdAt ls k - thresholdAt ls (k - min n k)), mx', kc + min n k) ∧
      ∀ c, mx' < c ↔ mx < c ∧ ∀ j, k - min n k ≤ j → j < k →
        thresholdAt ls (j + 1) - thresholdAt ls j < c := by
  induction n generalizing k kc tot mx with
  | zero =>
    refine ⟨mx, by simp [enoughScan], fun c => ⟨fun h => ⟨h, fun j h1 h2 => by omega⟩, fun h => h.1⟩⟩
  | succ n ih =>
    obtain ⟨k, rfl⟩ : ∃ k', k = k' + 1 := ⟨k - 1, by omega⟩
    obtain ⟨a, ha, hav⟩ := get_thresholdAt hk
    obtain ⟨b, hb, hbv⟩ := get_thresholdAt (show k < ls.length by omega)
    have hm : ∀ c, (if a.logl.value - b.logl.value > mx then a.logl.value - b.logl.value else mx) < c ↔
        mx < c ∧ thresholdAt ls (k + 1) - thresholdAt ls k < c := by
      intro c
      rw [← hav, ← hbv]
      split_ifs with h
      · exact ⟨fun h' => ⟨lt_trans h h', h'⟩, fun h' => h'.2⟩
      · exact ⟨fun h' => ⟨h', lt_of_le_of_lt (not_lt.1 h) h'⟩, fun h' => h'.1⟩
    simp only [enoughScan, ha, hb, Res.ok_bind]
    by_cases h1 : k < 1
    · obtain rfl : k = 0 := by omega
      rw [if_pos (by norm_num)]
      refine ⟨if a.logl.value - b.logl.value > mx then a.logl.value - b.logl.value else mx, ?_,
        fun c => ?_⟩
      · rw [show min (n + 1) (0 + 1) = 1 by omega, hav, hbv]
      · rw [hm c]
        refine and_congr_right fun _ => ⟨fun h j _ h2 => ?_, fun h => h 0 (by omega) (by omega)⟩
        obtain rfl : j = 0 := by omega
        exact h
    · rw [if_neg h1]
      obtain ⟨mx', he, hx⟩ := ih k (kc + 1) (tot + (a.logl.value - b.logl.value))
        (if a.logl.value - b.logl.value > mx then a.logl.value - b.logl.value else mx)
        (by omega) (by omega)
      refine ⟨mx', ?_, fun c => ?_⟩
      · rw [he]
        have e1 : k + 1 - min (n + 1) (k + 1) = k - min n k := by omega
        have e2 : kc + 1 + min n k = kc + min (n + 1) (k + 1) := by omega
        rw [e1, e2, hav, hbv]
        congr 2
        ring
      · rw [hx c, hm c, and_assoc]
        refine and_congr_right fun _ => ⟨fun ⟨h2, h3⟩ j h4 h5 => ?_, fun h => ⟨?_, ?_⟩⟩
        · by_cases hj : j = k
          · rw [hj]; exact h2
          · exact h3 j (by omega) (by omega)
        · exact h k (by omega) (by omega)
        · exact fun j h4 h5 => h j (by omega) (by omega)

theorem gaps_unique {size n m : ℕ} (hn : GapsChecked size n) (hm : GapsChecked size m) : n = m := by
  rcases hn with ⟨h1, h2⟩ | ⟨h1, h2, h3⟩ <;> rcases hm with ⟨h4, h5⟩ | ⟨h4, h5, h6⟩
  · omega
  · omega
  · omega
  · have a := Nat.mul_self_lt_mul_self_iff.1 (lt_of_le_of_lt h2 h6)
    have b := Nat.mul_self_lt_mul_self_iff.1 (lt_of_le_of_lt h5 h3)
    omega

theorem numToCheck_big {size : ℕ} (h : 80 < size) : numToCheck size = Nat.sqrt (5 * size) := by
  unfold numToCheck
  rw [if_pos h, ← Real.sqrt_mul (by norm_num)]
  have : (20 : ℝ) * (0.25 * size) = ((5 * size : ℕ) : ℝ) := by push_cast; ring
  rw [this]
  exact Real.nat_floor_real_sqrt_eq_nat_sqrt

theorem gaps_numToCheck (size : ℕ) : GapsChecked size (min (numToCheck size) (size - 1)) := by
  by_cases h : 80 < size
  · right
    rw [numToCheck_big h]
    have h1 := Nat.sqrt_le (5 * size)
    have h2 := Nat.sqrt_lt_self (n := 5 * size) (by omega)
    have h3 : Nat.sqrt (5 * size) ≤ size - 1 := by
      by_contra hc
      have : size ≤ Nat.sqrt (5 * size) := by omega
      have := Nat.mul_le_mul this this
      nlinarith
    rw [min_eq_left h3]
    exact ⟨h, h1, Nat.sqrt_lt.1 (Nat.lt_succ_self _) ⟩
  · left
    refine ⟨by omega, ?_⟩
    unfold numToCheck
    rw [if_neg h]

end Mica
