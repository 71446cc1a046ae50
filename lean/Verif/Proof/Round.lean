import Verif.Spec.Round
import Mathlib.Tactic.Linarith
import Mathlib.Tactic.Ring
import Mathlib.Tactic.NormNum
import Mathlib.Tactic.Positivity
import Mathlib.Tactic.FieldSimp
import Mathlib.Data.Set.Finite.Lattice
import Mathlib.Data.Set.Finite.Lemmas
import Mathlib.Algebra.Order.Archimedean.Basic
import Mathlib.Order.Interval.Finset.Defs
import Mathlib.Data.Int.Interval
import Mathlib.Order.Interval.Set.Defs

namespace Mica

variable {F : Set ℝ} {rd : ℝ → ℝ}

theorem Nearest.fix (h : Nearest F rd) {x : ℝ} (hx : x ∈ F) : rd x = x := by
  have := h.near x x hx
  simp only [sub_self, abs_zero] at this
  have := abs_nonpos_iff.1 this
  linarith

theorem Nearest.mono (h : Nearest F rd) {x y : ℝ} (hxy : x ≤ y) : rd x ≤ rd y := by
  by_contra hc
  push Not at hc
  have h1 := h.near x (rd y) (h.mem y)
  have h2 := h.near y (rd x) (h.mem x)
  have h3 := (sq_le_sq).2 h1
  have h4 := (sq_le_sq).2 h2
  have h5 : 2 * x ≥ rd x + rd y := by nlinarith
  have h6 : 2 * y ≤ rd x + rd y := by nlinarith
  have : x = y := by linarith
  rw [this] at hc
  exact lt_irrefl _ hc

/-- A rounded value cannot pass a member of `F`. -/
theorem Nearest.le_of_le (h : Nearest F rd) {x y : ℝ} (hy : y ∈ F) (hxy : x ≤ y) : rd x ≤ y := by
  have := h.mono hxy
  rwa [h.fix hy] at this

theorem Nearest.ge_of_ge (h : Nearest F rd) {x y : ℝ} (hy : y ∈ F) (hxy : y ≤ x) : y ≤ rd x := by
  have := h.mono hxy
  rwa [h.fix hy] at this

/-- The folded part of `dnest_wrap` lies in `[0, W]`, `W` the rounded width. -/
theorem rMod_spec (h : Nearest F rd) (h0 : (0 : ℝ) ∈ F) (h1 : (1 : ℝ) ∈ F) {W : ℝ} (hWF : W ∈ F)
    (hW0 : 0 ≤ W) (y : ℝ) : ∃ m, rMod rd y W = .ok m ∧ m ∈ F ∧ 0 ≤ m ∧ m ≤ W := by
  by_cases hp : 0 < W
  · refine ⟨_, if_pos hp, h.mem _, ?_, ?_⟩
    · apply h.ge_of_ge h0
      refine mul_nonneg (h.ge_of_ge h0 ?_) hp.le
      have := Int.floor_le (rd (y / W))
      linarith
    · apply h.le_of_le hWF
      have : rd (rd (y / W) - (⌊rd (y / W)⌋ : ℝ)) ≤ 1 := by
        apply h.le_of_le h1
        have := Int.lt_floor_add_one (rd (y / W))
        linarith
      nlinarith
  · have hz : W = 0 := le_antisymm (not_lt.1 hp) hW0
    exact ⟨0, by rw [rMod, if_neg hp, if_pos hz], h0, le_rfl, hW0⟩

theorem rWrap_spec (h : Nearest F rd) (h0 : (0 : ℝ) ∈ F) (h1 : (1 : ℝ) ∈ F) {lo hi : ℝ}
    (hlo : lo ∈ F) (hle : lo ≤ hi) (x : ℝ) :
    ∃ r, rWrap rd x lo hi = .ok r ∧ r ∈ F ∧ lo ≤ r ∧ r ≤ rd (rd (hi - lo) + lo) := by
  have hW0 : 0 ≤ rd (hi - lo) := h.ge_of_ge h0 (by linarith)
  obtain ⟨m, hm, -, hm0, hm1⟩ := rMod_spec h h0 h1 (h.mem (hi - lo)) hW0 (rd (x - lo))
  refine ⟨rd (m + lo), ?_, h.mem _, h.ge_of_ge hlo (by linarith), h.mono (by linarith)⟩
  unfold rWrap
  rw [hm, Res.ok_bind, Res.pure_eq]

/-! ### Facts about `F64` -/

theorem f64_mk (m e : ℤ) (hm : |m| ≤ 2 ^ 53) (he : -1074 ≤ e) : (m : ℝ) * (2 : ℝ) ^ e ∈ F64 :=
  ⟨m, e, hm, he, rfl⟩

theorem f64_zero : (0 : ℝ) ∈ F64 := ⟨0, 0, by norm_num, by norm_num, by norm_num⟩
theorem f64_one : (1 : ℝ) ∈ F64 := ⟨1, 0, by norm_num, by norm_num, by norm_num⟩

theorem f64_pow (k : ℤ) (hk : -1074 ≤ k) : (2 : ℝ) ^ k ∈ F64 :=
  ⟨1, k, by norm_num, hk, by norm_num⟩

theorem f64_neg {x : ℝ} (hx : x ∈ F64) : -x ∈ F64 := by
  obtain ⟨m, e, hm, he, rfl⟩ := hx
  exact ⟨-m, e, by rwa [abs_neg], he, by push_cast; ring⟩

/-- `2^e` is a whole multiple of `2^k` for `k ≤ e`. -/
theorem zpow_split (m e k : ℤ) (hk : k ≤ e) : ∃ j : ℤ, (m : ℝ) * (2 : ℝ) ^ e = j * (2 : ℝ) ^ k := by
  refine ⟨m * 2 ^ (e - k).toNat, ?_⟩
  have h1 : (2 : ℝ) ^ e = (2 : ℝ) ^ (e - k).toNat * (2 : ℝ) ^ k := by
    rw [← zpow_natCast, ← zpow_add₀ (by norm_num), Int.toNat_of_nonneg (by omega)]
    congr 1; ring
  rw [h1]; push_cast; ring

/-- Members of `F64` are whole multiples of `2^-1074`. -/
theorem f64_grid {x : ℝ} (hx : x ∈ F64) : ∃ j : ℤ, x = j * (2 : ℝ) ^ (-1074 : ℤ) := by
  obtain ⟨m, e, -, he, rfl⟩ := hx
  exact zpow_split m e _ he

/-- Members of `F64` of size at least `2^k` are whole multiples of `2^(k-52)`. -/
theorem f64_ulp {x : ℝ} (hx : x ∈ F64) (k : ℤ) (hk : (2 : ℝ) ^ k ≤ x) :
    ∃ j : ℤ, x = j * (2 : ℝ) ^ (k - 52) := by
  obtain ⟨m, e, hm, -, rfl⟩ := hx
  rcases le_or_gt (k - 52) e with he | he
  · exact zpow_split m e _ he
  · have h1 : (m : ℝ) ≤ 2 ^ 53 := by exact_mod_cast (abs_le.1 hm).2
    have h2 : (2 : ℝ) ^ e ≤ (2 : ℝ) ^ (k - 53) := zpow_le_zpow_right₀ (by norm_num) (by omega)
    have h3 : (2 : ℝ) ^ k = 2 ^ 53 * (2 : ℝ) ^ (k - 53) := by
      rw [← zpow_natCast, ← zpow_add₀ (by norm_num)]; congr 1; push_cast; ring
    have h4 : (0 : ℝ) < (2 : ℝ) ^ e := zpow_pos (by norm_num) _
    have h5 : (m : ℝ) * (2 : ℝ) ^ e ≤ (2 : ℝ) ^ k := by
      rw [h3]; nlinarith
    have h6 : (m : ℝ) * (2 : ℝ) ^ e = (2 : ℝ) ^ k := le_antisymm h5 hk
    refine ⟨2 ^ 52, ?_⟩
    rw [h6, Int.cast_pow, Int.cast_ofNat, ← zpow_natCast, ← zpow_add₀ (by norm_num)]
    congr 1; push_cast; ring

/-- There is a rounding to nearest for `F64`. -/
theorem f64_nearest_exists : ∃ rd : ℝ → ℝ, Nearest F64 rd := by
  have key : ∀ x : ℝ, ∃ y ∈ F64, ∀ z ∈ F64, |y - x| ≤ |z - x| := by
    intro x
    have hp : (0 : ℝ) < (2 : ℝ) ^ (-1074 : ℤ) := zpow_pos (by norm_num) _
    generalize hg : (2 : ℝ) ^ (-1074 : ℤ) = g at hp
    let S : Set ℤ := {k : ℤ | (k : ℝ) * g ∈ F64 ∧ |(k : ℝ) * g - x| ≤ |x|}
    have hfin : S.Finite := by
      apply Set.Finite.subset (Set.finite_Icc (-⌈2 * |x| / g⌉) ⌈2 * |x| / g⌉)
      rintro k ⟨-, hk⟩
      have hkx : |(k : ℝ) * g| ≤ 2 * |x| := by
        have := abs_add_le ((k : ℝ) * g - x) x
        rw [sub_add_cancel] at this; linarith
      have h1 : |(k : ℝ)| ≤ 2 * |x| / g := by
        rw [abs_mul, abs_of_pos hp] at hkx
        rwa [le_div_iff₀ hp]
      have h2 := Int.le_ceil (2 * |x| / g)
      have h3 := abs_le.1 (h1.trans h2)
      constructor
      · exact_mod_cast h3.1
      · exact_mod_cast h3.2
    have hne : S.Nonempty := ⟨0, by
      refine ⟨by rw [Int.cast_zero, zero_mul]; exact f64_zero, ?_⟩
      rw [Int.cast_zero, zero_mul, zero_sub, abs_neg]⟩
    obtain ⟨k, hk, hmin⟩ := Set.exists_min_image S (fun k => |(k : ℝ) * g - x|) hfin hne
    refine ⟨k * g, hk.1, fun z hz => ?_⟩
    rcases le_or_gt |z - x| |x| with hz1 | hz1
    · obtain ⟨j, hj⟩ := f64_grid hz
      rw [hg] at hj
      rw [hj]
      exact hmin j ⟨by rw [← hj]; exact hz, by rw [← hj]; exact hz1⟩
    · exact hk.2.trans hz1.le
  choose f hf hf' using key
  exact ⟨f, hf, hf'⟩

/-- Just below a multiple of the spacing, rounding goes up to it. -/
theorem rd_up {rd : ℝ → ℝ} (h : Nearest F64 rd) {x y : ℝ} (k j : ℤ) (hk : -1074 ≤ k) (hx : (2 : ℝ) ^ k ≤ x)
    (hxy : x ≤ y) (hy : y ∈ F64) (hj : y = j * (2 : ℝ) ^ (k - 52))
    (hd : 2 * (y - x) < (2 : ℝ) ^ (k - 52)) : rd x = y := by
  have h1 : rd x ≤ y := h.le_of_le hy hxy
  by_contra hne
  have hlt : rd x < y := lt_of_le_of_ne h1 hne
  obtain ⟨i, hi⟩ := f64_ulp (h.mem x) k (h.ge_of_ge (f64_pow k hk) hx)
  have hp : (0 : ℝ) < (2 : ℝ) ^ (k - 52) := zpow_pos (by norm_num) _
  have hij : i + 1 ≤ j := by
    rw [hi, hj] at hlt
    have : (i : ℝ) < j := lt_of_mul_lt_mul_right hlt hp.le
    have : i < j := by exact_mod_cast this
    omega
  have hij' : (i : ℝ) + 1 ≤ j := by exact_mod_cast hij
  have h2 : rd x ≤ y - (2 : ℝ) ^ (k - 52) := by
    rw [hi, hj]; nlinarith
  have h3 := h.near x y hy
  rw [abs_of_nonneg (by linarith : (0:ℝ) ≤ y - x)] at h3
  have h4 := (abs_le.1 h3).1
  linarith

/-- The difference of two members of `F64`, if small, is a member. -/
theorem f64_sub_small {a b : ℝ} (ha : a ∈ F64) (hb : b ∈ F64) (h : |a - b| ≤ (2 : ℝ) ^ (-1021 : ℤ)) :
    a - b ∈ F64 := by
  obtain ⟨i, hi⟩ := f64_grid ha
  obtain ⟨j, hj⟩ := f64_grid hb
  have hp : (0 : ℝ) < (2 : ℝ) ^ (-1074 : ℤ) := zpow_pos (by norm_num) _
  have h1 : a - b = ((i - j : ℤ) : ℝ) * (2 : ℝ) ^ (-1074 : ℤ) := by
    rw [hi, hj, Int.cast_sub, sub_mul]
  have h2 : (2 : ℝ) ^ (-1021 : ℤ) = 2 ^ 53 * (2 : ℝ) ^ (-1074 : ℤ) := by
    rw [← zpow_natCast, ← zpow_add₀ (by norm_num)]; congr 1
  rw [h1, abs_mul, abs_of_pos hp, h2] at h
  rw [h1]
  refine f64_mk _ _ ?_ le_rfl
  have := le_of_mul_le_mul_right h hp
  exact_mod_cast this

/-- Members of `F64` below 1 are at most `1 - 2^-53`. -/
theorem f64_lt_one {f : ℝ} (hf : f ∈ F64) (h : f < 1) : f ≤ 1 - (2 : ℝ) ^ (-53 : ℤ) := by
  rcases le_or_gt ((2 : ℝ) ^ (-1 : ℤ)) f with h1 | h1
  · obtain ⟨j, hj⟩ := f64_ulp hf (-1) h1
    norm_num at hj
    have h2 : (j : ℝ) < 2 ^ 53 := by
      rw [hj] at h
      norm_num at h ⊢
      linarith
    have h3 : j + 1 ≤ 2 ^ 53 := by
      have : j < 2 ^ 53 := by exact_mod_cast h2
      omega
    have h4 : (j : ℝ) + 1 ≤ 2 ^ 53 := by exact_mod_cast h3
    rw [hj]
    norm_num at h4 ⊢
    linarith
  · norm_num at h1 ⊢
    linarith

/-- Multiplying a width by a factor below 1 gives something below the width also after rounding. -/
theorem rd_mul_lt {rd : ℝ → ℝ} (h : Nearest F64 rd) {W f : ℝ} (hW : W ∈ F64)
    (hW1 : (2 : ℝ) ^ (-1021 : ℤ) ≤ W) (hf : f ≤ 1 - (2 : ℝ) ^ (-53 : ℤ)) : rd (f * W) < W := by
  have hW0 : 0 < W := lt_of_lt_of_le (zpow_pos (by norm_num) _) hW1
  obtain ⟨k, hk1, hk2⟩ := exists_mem_Ico_zpow hW0 (by norm_num : (1 : ℝ) < 2)
  have hk : -1021 ≤ k := by
    have : (2 : ℝ) ^ (-1021 : ℤ) < (2 : ℝ) ^ (k + 1) := hW1.trans_lt hk2
    have := (zpow_lt_zpow_iff_right₀ (by norm_num : (1 : ℝ) < 2)).1 this
    omega
  have hu : (0 : ℝ) < (2 : ℝ) ^ (k - 53) := zpow_pos (by norm_num) _
  have hk52 : (2 : ℝ) ^ (k - 52) = 2 * (2 : ℝ) ^ (k - 53) := by
    have : k - 52 = 1 + (k - 53) := by ring
    rw [this, zpow_add₀ (by norm_num), zpow_one]
  have hk0 : (2 : ℝ) ^ k = 2 ^ 53 * (2 : ℝ) ^ (k - 53) := by
    rw [← zpow_natCast, ← zpow_add₀ (by norm_num)]; congr 1; push_cast; ring
  have hk53 : (2 : ℝ) ^ k * (2 : ℝ) ^ (-53 : ℤ) = (2 : ℝ) ^ (k - 53) := by
    rw [← zpow_add₀ (by norm_num)]; congr 1
  have hp53 : (0 : ℝ) < (2 : ℝ) ^ (-53 : ℤ) := zpow_pos (by norm_num) _
  have hfW : f * W ≤ W - W * (2 : ℝ) ^ (-53 : ℤ) := by nlinarith
  rcases eq_or_lt_of_le hk1 with he | hlt
  · have hc : W - (2 : ℝ) ^ (k - 53) ∈ F64 := by
      have : W - (2 : ℝ) ^ (k - 53) = ((2 ^ 53 - 1 : ℤ) : ℝ) * (2 : ℝ) ^ (k - 53) := by
        rw [← he, hk0, Int.cast_sub, Int.cast_pow]; norm_num; ring
      rw [this]
      exact f64_mk _ _ (by norm_num) (by omega)
    have : rd (f * W) ≤ W - (2 : ℝ) ^ (k - 53) := by
      apply h.le_of_le hc
      rw [← he, hk53, he] at hfW
      exact hfW
    linarith
  · obtain ⟨j, hj⟩ := f64_ulp hW k hk1
    have hc : W - (2 : ℝ) ^ (k - 52) ∈ F64 := by
      have h1 : W - (2 : ℝ) ^ (k - 52) = ((j - 1 : ℤ) : ℝ) * (2 : ℝ) ^ (k - 52) := by
        rw [Int.cast_sub, Int.cast_one, sub_mul, one_mul, ← hj]
      rw [h1]
      refine f64_mk _ _ ?_ (by omega)
      have hu' : (0 : ℝ) < (2 : ℝ) ^ (k - 52) := zpow_pos (by norm_num) _
      have h2 : (0 : ℝ) < j := by
        rw [hj] at hW0
        exact (pos_iff_pos_of_mul_pos hW0).2 hu'
      have h3 : (2 : ℝ) ^ (k + 1) = 2 ^ 53 * (2 : ℝ) ^ (k - 52) := by
        rw [← zpow_natCast, ← zpow_add₀ (by norm_num)]; congr 1; push_cast; ring
      rw [h3, hj] at hk2
      have h4 : (j : ℝ) < 2 ^ 53 := lt_of_mul_lt_mul_right hk2 hu'.le
      have h5 : j < 2 ^ 53 := by exact_mod_cast h4
      have h6 : 0 < j := by exact_mod_cast h2
      rw [abs_of_nonneg (by omega)]
      omega
    by_contra hge
    push Not at hge
    have h1 := h.near (f * W) _ hc
    have h2 : W * (2 : ℝ) ^ (-53 : ℤ) > (2 : ℝ) ^ (k - 53) := by
      rw [← hk53]
      exact mul_lt_mul_of_pos_right hlt hp53
    rw [abs_of_nonneg (by linarith : 0 ≤ rd (f * W) - f * W)] at h1
    rcases abs_cases (W - (2 : ℝ) ^ (k - 52) - f * W) with ⟨ha, -⟩ | ⟨ha, -⟩ <;> rw [ha] at h1 <;> linarith

/-- The fractional part of a quotient, rounded, is below 1 unless the quotient is a tiny negative
number. -/
theorem rd_fract_lt {rd : ℝ → ℝ} (h : Nearest F64 rd) {q : ℝ} (hq : q ∈ F64)
    (hn : 0 ≤ q ∨ q ≤ -(2 : ℝ) ^ (-53 : ℤ)) :
    rd (q - (⌊q⌋ : ℝ)) ≤ 1 - (2 : ℝ) ^ (-53 : ℤ) := by
  have hc : 1 - (2 : ℝ) ^ (-53 : ℤ) ∈ F64 :=
    ⟨2 ^ 53 - 1, -53, by norm_num, by norm_num, by norm_num⟩
  apply h.le_of_le hc
  have hf1 := Int.lt_floor_add_one q
  have big : ∀ j : ℤ, q = j * (2 : ℝ) ^ ((0 : ℤ) - 52) → q - (⌊q⌋ : ℝ) ≤ 1 - (2 : ℝ) ^ (-53 : ℤ) := by
    intro j hj
    have h1 : (j : ℝ) - ⌊q⌋ * 2 ^ 52 < 2 ^ 52 := by
      rw [show ((0 : ℤ) - 52) = -52 by norm_num] at hj
      norm_num at hj ⊢
      linarith
    have h2 : j - ⌊q⌋ * 2 ^ 52 + 1 ≤ 2 ^ 52 := by
      have : j - ⌊q⌋ * 2 ^ 52 < 2 ^ 52 := by exact_mod_cast h1
      omega
    have h3 : (j : ℝ) - ⌊q⌋ * 2 ^ 52 + 1 ≤ 2 ^ 52 := by exact_mod_cast h2
    generalize (⌊q⌋ : ℝ) = t at h3 ⊢
    norm_num at hj h3 ⊢
    linarith
  rcases le_or_gt 1 q with h1 | h1
  · obtain ⟨j, hj⟩ := f64_ulp hq 0 (by simpa using h1)
    exact big j hj
  rcases le_or_gt q (-1) with h2 | h2
  · obtain ⟨j, hj⟩ := f64_ulp (f64_neg hq) 0 (by rw [zpow_zero]; linarith)
    exact big (-j) (by rw [Int.cast_neg, neg_mul, ← hj, neg_neg])
  rcases hn with hn | hn
  · have : ⌊q⌋ = 0 := Int.floor_eq_iff.2 ⟨by simpa using hn, by simpa using h1⟩
    rw [this, Int.cast_zero, sub_zero]
    exact f64_lt_one hq h1
  · have : ⌊q⌋ = -1 := Int.floor_eq_iff.2 ⟨by push_cast; linarith, by
      push_cast
      have : (0 : ℝ) < (2 : ℝ) ^ (-53 : ℤ) := zpow_pos (by norm_num) _
      linarith⟩
    rw [this]; push_cast; linarith

/-- Rounding the difference of two members of `F64` at most halves its size. -/
theorem rd_sub_half {rd : ℝ → ℝ} (h : Nearest F64 rd) {a b : ℝ} (ha : a ∈ F64) (hb : b ∈ F64)
    (hlt : a < b) : rd (a - b) ≤ (a - b) / 2 := by
  obtain ⟨i, hi⟩ := f64_grid ha
  obtain ⟨j, hj⟩ := f64_grid hb
  have hp : (0 : ℝ) < (2 : ℝ) ^ (-1074 : ℤ) := zpow_pos (by norm_num) _
  have h1 : (2 : ℝ) ^ (-1074 : ℤ) ≤ b - a := by
    rw [hi, hj] at hlt ⊢
    have : (i : ℝ) < j := lt_of_mul_lt_mul_right hlt hp.le
    have : i + 1 ≤ j := by
      have : i < j := by exact_mod_cast this
      omega
    have : (i : ℝ) + 1 ≤ j := by exact_mod_cast this
    nlinarith
  obtain ⟨k, hk1, hk2⟩ := exists_mem_Ico_zpow (show 0 < b - a by linarith) (by norm_num : (1 : ℝ) < 2)
  have hk : -1074 ≤ k := by
    have := h1.trans_lt hk2
    have := (zpow_lt_zpow_iff_right₀ (by norm_num : (1 : ℝ) < 2)).1 this
    omega
  have h2 : rd (a - b) ≤ -(2 : ℝ) ^ k := h.le_of_le (f64_neg (f64_pow k hk)) (by linarith)
  rw [zpow_add₀ (by norm_num), zpow_one] at hk2
  linarith

/-- The overshoot needs a proposal a little below the lower limit. -/
theorem rWrap_le {rd : ℝ → ℝ} (h : Nearest F64 rd) {lo hi x r : ℝ} (hlo : lo ∈ F64) (hhi : hi ∈ F64)
    (hx : x ∈ F64) (hle : lo ≤ hi) (hr : rWrap rd x lo hi = .ok r)
    (hn : lo ≤ x ∨ x ≤ lo - (2 : ℝ) ^ (-51 : ℤ) * (hi - lo)) : r ≤ hi := by
  obtain ⟨r', hr', -, -, hup⟩ := rWrap_spec h f64_zero f64_one hlo hle x
  have : r' = r := by rw [hr'] at hr; cases hr; rfl
  subst this
  by_cases hsmall : hi - lo ≤ (2 : ℝ) ^ (-1021 : ℤ)
  · have hm : hi - lo ∈ F64 := f64_sub_small hhi hlo (by rwa [abs_of_nonneg (by linarith)])
    rw [h.fix hm, sub_add_cancel, h.fix hhi] at hup
    exact hup
  push Not at hsmall
  have hW1 : (2 : ℝ) ^ (-1021 : ℤ) ≤ rd (hi - lo) := h.ge_of_ge (f64_pow _ (by norm_num)) hsmall.le
  have hW0 : 0 < rd (hi - lo) := lt_of_lt_of_le (zpow_pos (by norm_num) _) hW1
  have hwid : 0 < hi - lo := lt_trans (zpow_pos (by norm_num) _) hsmall
  have hW2 : rd (hi - lo) ≤ 2 * (hi - lo) := by
    have h1 := h.near (hi - lo) 0 f64_zero
    rw [zero_sub, abs_neg, abs_of_pos hwid] at h1
    have := (abs_le.1 h1).2
    linarith
  have hnear := h.near (hi - lo)
  have hWF := h.mem (hi - lo)
  have hq : 0 ≤ rd (rd (x - lo) / rd (hi - lo)) ∨
      rd (rd (x - lo) / rd (hi - lo)) ≤ -(2 : ℝ) ^ (-53 : ℤ) := by
    rcases hn with hn | hn
    · left
      exact h.ge_of_ge f64_zero (div_nonneg (h.ge_of_ge f64_zero (by linarith)) hW0.le)
    · right
      have hp51 : (0 : ℝ) < (2 : ℝ) ^ (-51 : ℤ) := zpow_pos (by norm_num) _
      have hlt : x < lo := by nlinarith
      have h2 := rd_sub_half h hx hlo hlt
      apply h.le_of_le (f64_neg (f64_pow _ (by norm_num)))
      rw [div_le_iff₀ hW0]
      have h3 : (2 : ℝ) ^ (-51 : ℤ) = 4 * (2 : ℝ) ^ (-53 : ℤ) := by norm_num
      have hp53 : (0 : ℝ) < (2 : ℝ) ^ (-53 : ℤ) := zpow_pos (by norm_num) _
      generalize (2 : ℝ) ^ (-53 : ℤ) = g at *
      rw [h3] at hn
      nlinarith
  have hf := rd_fract_lt h (h.mem _) hq
  have hm := rd_mul_lt h hWF hW1 hf
  have hr2 : r' = rd (rd (rd (rd (rd (x - lo) / rd (hi - lo)) -
      (⌊rd (rd (x - lo) / rd (hi - lo))⌋ : ℝ)) * rd (hi - lo)) + lo) := by
    unfold rWrap rMod at hr'
    rw [if_pos hW0, Res.ok_bind, Res.pure_eq] at hr'
    cases hr'; rfl
  have hmem := h.mem (rd (rd (rd (x - lo) / rd (hi - lo)) -
      (⌊rd (rd (x - lo) / rd (hi - lo))⌋ : ℝ)) * rd (hi - lo))
  rw [hr2]
  generalize rd (rd (rd (rd (x - lo) / rd (hi - lo)) -
      (⌊rd (rd (x - lo) / rd (hi - lo))⌋ : ℝ)) * rd (hi - lo)) = m at hm hmem
  have hmW : m ≤ hi - lo := by
    by_contra hc
    push Not at hc
    have h1 := hnear m hmem
    rw [abs_of_pos (by linarith), abs_of_pos (by linarith)] at h1
    linarith
  exact h.le_of_le hhi (by linarith)

end Mica
