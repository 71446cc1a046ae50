import Verif.Proof.Mock2

/-!
# C132: mock light curves and the transfer functions they are made with (genmockdata.py)
-/

namespace Mica

open Finset

/-! ## Shapes -/

/-- **C132.** Gaussian, gamma and exponential transfer functions of the script are those of the fitted
model with the same amplitude, centre and width (`exponential` takes its jump into the support: one
point). -/
theorem C132_shapes_partial (t f tau wid : ℝ) (hw : 0 < wid) :
    mockTf .gauss t f tau wid = f * tfDens .gauss tau wid t ∧
    mockTf .gamma t f tau wid = f * tfDens .gamma tau wid t ∧
    (t ≠ tau - wid → mockTf .exp t f tau wid = f * tfDens .exp tau wid t) := by
  refine ⟨?_, ?_, fun hne => ?_⟩
  · simp only [mockTf, tfDens]
    have h1 : Real.sqrt (2 * Real.pi * wid ^ 2) = Real.sqrt (2 * Real.pi) * wid := by
      rw [Real.sqrt_mul (by positivity), Real.sqrt_sq hw.le]
    have h2 : -0.5 * (t - tau) ^ 2 / wid ^ 2 = -(t - tau) ^ 2 / (2 * wid ^ 2) := by
      field_simp; ring
    rw [h1, h2]; ring
  · simp only [mockTf, tfDens]
    rcases lt_trichotomy (tau - 2 * wid) t with h | h | h
    · rw [if_pos h.le, if_pos h]; ring
    · rw [if_pos h.le, if_neg (by rw [h]; exact lt_irrefl _), h]; simp
    · rw [if_neg (not_le.2 h), if_neg (not_lt.2 h.le), mul_zero]
  · simp only [mockTf, tfDens, one_mul]
    rcases lt_trichotomy (tau - wid) t with h | h | h
    · rw [if_pos h.le, if_pos h]; ring
    · exact absurd h.symm hne
    · rw [if_neg (not_le.2 h), if_neg (not_lt.2 h.le), mul_zero]

/-- **C132 is false for top hats**: the width entered is the full width, the fitted model's is half of
it.  What is entered as `wid` is fitted as `wid/2` (edges apart), never as `wid`. -/
theorem C132_tophat (t f tau wid : ℝ) (hw : 0 < wid) :
    (|t - tau| ≠ wid / 2 → mockTf .tophat t f tau wid = f * tfDens .tophat tau (wid / 2) t) ∧
    (f ≠ 0 → mockTf .tophat tau f tau wid ≠ f * tfDens .tophat tau wid tau) := by
  constructor
  · intro hne
    simp only [mockTf, tfDens]
    have hiff : (tau - wid / 2 < t ∧ t < tau + wid / 2) ↔ |t - tau| ≤ wid / 2 := by
      rw [abs_le]
      constructor
      · rintro ⟨h1, h2⟩; exact ⟨by linarith, by linarith⟩
      · rintro ⟨h1, h2⟩
        have h3 : |t - tau| < wid / 2 := lt_of_le_of_ne (abs_le.2 ⟨h1, h2⟩) hne
        rw [abs_lt] at h3
        exact ⟨by linarith [h3.1], by linarith [h3.2]⟩
    by_cases h : |t - tau| ≤ wid / 2
    · rw [if_pos (hiff.2 h), if_pos h]
      field_simp
    · rw [if_neg (fun h' => h (hiff.1 h')), if_neg h, mul_zero]
  · intro hf
    simp only [mockTf, tfDens, sub_self, abs_zero]
    rw [if_pos ⟨by linarith, by linarith⟩, if_pos hw.le]
    intro h
    field_simp at h
    norm_num at h

/-! ## Normalisation -/

/-- **C132.** Only the ratios of the amplitudes matter: multiplying all of them by the same positive
number changes nothing. -/
theorem C132_ratios (tfs : List MockComp) (l0 l1 dt a : ℝ) (ha : 0 < a) (i : ℕ) :
    mockResp (tfs.map fun k => { k with f := a * k.f }) l0 l1 dt i = mockResp tfs l0 l1 dt i := by
  have htf : ∀ (T : TF) (t f tau wid : ℝ), mockTf T t (a * f) tau wid = a * mockTf T t f tau wid := by
    intro T t f tau wid
    cases T <;> simp only [mockTf]
    · ring
    · split <;> ring
    · split <;> ring
    · split <;> ring
  have hraw : ∀ i, mockRaw (tfs.map fun k => { k with f := a * k.f }) l0 dt i = a * mockRaw tfs l0 dt i := by
    intro i
    unfold mockRaw
    have : ∀ (l : List MockComp) (r : ℝ),
        (l.map fun k => { k with f := a * k.f }).foldl
          (fun r k => r + mockTf k.typ (mockTau l0 dt i) k.f k.tau k.wid) (a * r) =
        a * l.foldl (fun r k => r + mockTf k.typ (mockTau l0 dt i) k.f k.tau k.wid) r := by
      intro l
      induction l with
      | nil => intro r; rfl
      | cons k l ih =>
        intro r
        simp only [List.map_cons, List.foldl_cons]
        rw [htf, ← mul_add, ih]
    have h := this tfs 0
    rwa [mul_zero] at h
  unfold mockResp mockNorm
  simp only [hraw, abs_mul, abs_of_pos ha]
  rw [← Finset.mul_sum, mul_assoc, mul_div_mul_left _ _ ha.ne']

/-- **C132.** The written transfer function has unit area in absolute value. -/
theorem C132_area (tfs : List MockComp) (l0 l1 dt : ℝ) (hdt : 0 < dt) (h : mockNorm tfs l0 l1 dt ≠ 0) :
    (∑ i ∈ range (mockNtau l0 l1 dt), |mockResp tfs l0 l1 dt i|) * dt = 1 := by
  have hpos : 0 < mockNorm tfs l0 l1 dt := by
    refine lt_of_le_of_ne ?_ (Ne.symm h)
    unfold mockNorm
    exact mul_nonneg (Finset.sum_nonneg fun _ _ => abs_nonneg _) hdt.le
  have : ∀ i, |mockResp tfs l0 l1 dt i| = |mockRaw tfs l0 dt i| / mockNorm tfs l0 l1 dt := by
    intro i
    unfold mockResp
    rw [abs_div, abs_of_pos hpos]
  simp only [this]
  rw [← Finset.sum_div, div_mul_eq_mul_div]
  exact div_self h

/-! ## Convolution -/

/-- **C132.** `convolve_fft` is the circular convolution: the response reaches back around the end of
the array; the transform of half the spectrum loses nothing. -/
theorem C132_circular (n : ℕ) (hn : 0 < n) (con : ℕ → ℝ) (nr : ℕ) (resp : ℕ → ℝ) :
    (nr ≤ n → ∃ c, convolveFft n con nr resp = some c ∧
      (∀ m, c m = ∑ j ∈ range nr, resp j * con ((m + n - j) % n)) ∧
      ∀ m, m < n → nr ≤ m + 1 → c m = ∑ j ∈ range nr, resp j * con (m - j)) ∧
    (n < nr → convolveFft n con nr resp = none) := by
  constructor
  · intro hr
    obtain ⟨c, h1, h2⟩ := convolveFft_inside n hn con nr resp hr
    exact ⟨c, h1, h2, fun m hm hle => by rw [h2, convolveFft_causal n con nr resp m hm hle]⟩
  · intro h
    unfold convolveFft
    rw [if_neg (by omega)]

/-- **C132, the mock line.**  Let the mock continuum at time `t` be `C t`.  If the lag range starts on
the time grid and all times `t - τ` lie within the simulated span, then the mock line (without errors)
at a grid time `t` is one plus the sum over the lags of the written transfer function times the
continuum's variation at `t - τ`: lags of either sign are treated alike. -/
theorem C132_response {W : ℕ} (hW : 0 < W) (V nd : ℕ) {DT : ℝ} (hDT : 0 < DT) (C : ℝ → ℝ)
    (tfs : List MockComp) (l0 l1 : ℝ) (q : ℤ) (hq : l0 = q * DT) (i : ℕ) (hi : i < V * nd)
    (hr0 : 0 < mockNtau l0 l1 DT)
    (hin : ∀ j < mockNtau l0 l1 DT,
      mockTs W V nd DT 0 ≤ mockTs W V nd DT i - mockTau l0 DT j ∧
      mockTs W V nd DT i - mockTau l0 DT j ≤ mockTs W V nd DT (V * nd - 1)) :
    ∃ conv, mockConv (V * nd) (mockTs W V nd DT) (fun i => C (mockTs W V nd DT i)) tfs l0 l1 = some conv ∧
      conv i = 1 + DT * ∑ j ∈ range (mockNtau l0 l1 DT),
        mockResp tfs l0 l1 DT j * (C (mockTs W V nd DT i - mockTau l0 DT j) - 1) := by
  set n := V * nd with hn
  set nr := mockNtau l0 l1 DT with hnr
  have hpos : 0 < n := by omega
  have cmp : ∀ a b : ℤ, DT * ((a : ℝ) - (n : ℝ) / 2) ≤ DT * ((b : ℝ) - (n : ℝ) / 2) → a ≤ b := by
    intro a b h
    have := le_of_mul_le_mul_left h hDT
    have h2 : (a : ℝ) ≤ b := by linarith
    exact_mod_cast h2
  -- indices
  have hidx : ∀ j < nr, 0 ≤ (i : ℤ) - q - j ∧ (i : ℤ) - q - j ≤ n - 1 := by
    intro j hj
    obtain ⟨h1, h2⟩ := hin j hj
    rw [mockTs_eq hW, mockTs_eq hW] at h1 h2
    unfold mockTau at h1 h2
    have hcast : ((n - 1 : ℕ) : ℝ) = n - 1 := by push_cast [show 1 ≤ n by omega]; ring
    constructor
    · refine cmp 0 _ ?_
      push_cast
      rw [hq] at h1
      push_cast at h1
      nlinarith [h1]
    · refine cmp _ (n - 1) ?_
      push_cast
      rw [hq, hcast] at h2
      nlinarith [h2]
  obtain ⟨a0, a1⟩ := hidx 0 hr0
  obtain ⟨b0, b1⟩ := hidx (nr - 1) (by omega)
  obtain ⟨p, hp⟩ : ∃ p : ℕ, (p : ℤ) = (i : ℤ) - q := ⟨((i : ℤ) - q).toNat, by
    rw [Int.toNat_of_nonneg]; simpa using a0⟩
  have hpn : p < n := by push_cast at a1; omega
  have hrp : nr ≤ p + 1 := by
    have : ((nr - 1 : ℕ) : ℤ) ≤ p := by omega
    omega
  have hr : nr ≤ n := by omega
  obtain ⟨c, hc, -, hcc⟩ := (C132_circular n hpos (fun i => C (mockTs W V nd DT i) - 1) nr
    (mockResp tfs l0 l1 DT)).1 hr
  refine ⟨fun i => npInterp n (fun k => mockTs W V nd DT k + mockTau l0 DT 0) (fun i => c i * DT + 1)
      (mockTs W V nd DT i), ?_, ?_⟩
  · unfold mockConv
    rw [mockTs_step hW]
    dsimp only
    rw [← hnr, hc]
    rfl
  · have hx : mockTs W V nd DT i = (fun k => mockTs W V nd DT k + mockTau l0 DT 0) p := by
      dsimp only
      rw [mockTs_shift hW V nd DT i p q (by omega)]
      unfold mockTau
      rw [hq]; push_cast; ring
    beta_reduce
    conv_lhs => rw [hx]
    rw [npInterp_grid n _ _ (fun a b hab _ => by
      have := mockTs_lt hW V nd hDT hab
      linarith) p hpn, hcc p hpn hrp]
    rw [add_comm, mul_comm DT]
    congr 2
    refine Finset.sum_congr rfl fun j hj => ?_
    have hj := Finset.mem_range.1 hj
    congr 3
    rw [mockTs_shift hW V nd DT i (p - j) (q + j) (by push_cast [show j ≤ p by omega]; omega)]
    unfold mockTau
    rw [hq]; push_cast; ring

/-- **C132, for the light curves of `simlc`.**  With a lag range that starts on a multiple of 0.01 and
is not longer than about five times the simulated length, every line epoch on the grid (a multiple of
0.01, as all are when `tspan` and the cadence are) has the convolution sum as its flux. -/
theorem C132_simlc (C : ℝ → ℝ) (tfs : List MockComp) (tspan dt l0 l1 : ℝ) (q : ℤ) (hq : l0 = q * 0.01)
    (hl : l0 + 0.01 ≤ l1) (nd : ℕ) (hnd : nd = ⌊tspan * 2.5 / 0.01⌋₊)
    (h1 : l1 ≤ 5 * nd * 0.01) (h0 : tspan - l0 ≤ 5 * nd * 0.01 - 0.01) (ht : tspan ≤ 5 * nd * 0.01 - 0.01)
    (i k : ℕ) (hk : mockLineTime tspan dt i = k * 0.01) (hkt : mockLineTime tspan dt i ≤ tspan) :
    ∃ line, mockLine (10 * nd) (mockTs 10 10 nd 0.01) (fun i => C (mockTs 10 10 nd 0.01 i)) tfs l0 l1
        tspan dt = some line ∧
      line i = 1 + 0.01 * ∑ j ∈ range (mockNtau l0 l1 0.01),
        mockResp tfs l0 l1 0.01 j * (C (mockLineTime tspan dt i - mockTau l0 0.01 j) - 1) := by
  have hDT : (0 : ℝ) < 0.01 := by norm_num
  have hts : mockTs 10 10 nd 0.01 (5 * nd + k) = mockLineTime tspan dt i := by
    rw [mockTs_eq (by norm_num), hk]; push_cast; ring
  have hts0 : mockTs 10 10 nd 0.01 0 = - (5 * nd * 0.01) := by
    rw [mockTs_eq (by norm_num)]; push_cast; ring
  have hk5 : 5 * nd + k < 10 * nd := by
    rw [hk] at hkt
    have : (k : ℝ) + 1 ≤ 5 * nd := by linarith
    have h2 : k + 1 ≤ 5 * nd := by exact_mod_cast this
    omega
  have hts1 : mockTs 10 10 nd 0.01 (10 * nd - 1) = 5 * nd * 0.01 - 0.01 := by
    rw [mockTs_eq (by norm_num)]
    push_cast [show 1 ≤ 10 * nd by omega]; ring
  have hr0 : 0 < mockNtau l0 l1 0.01 := by
    unfold mockNtau
    rw [Nat.floor_pos, le_div_iff₀ hDT]
    linarith
  obtain ⟨conv, hc, hval⟩ := C132_response (W := 10) (by norm_num) 10 nd hDT C tfs l0 l1 q hq
    (5 * nd + k) hk5 hr0 (by
      intro j hj
      rw [hts, hts0, hts1]
      have hj1 : (j : ℝ) + 1 ≤ (l1 - l0) / 0.01 := by
        have hj' : j + 1 ≤ mockNtau l0 l1 0.01 := hj
        unfold mockNtau at hj'
        have := (Nat.le_floor_iff (div_nonneg (by linarith) hDT.le)).1 hj'
        exact_mod_cast this
      rw [le_div_iff₀ hDT] at hj1
      have hj0 : (0 : ℝ) ≤ j := Nat.cast_nonneg j
      have hk0 : (0 : ℝ) ≤ k := Nat.cast_nonneg k
      unfold mockTau
      constructor
      · rw [hk]; linarith
      · linarith)
  refine ⟨fun i => npInterp (10 * nd) (mockTs 10 10 nd 0.01) conv (mockLineTime tspan dt i), ?_, ?_⟩
  · unfold mockLine
    rw [hc]
    rfl
  · beta_reduce
    rw [← hts, npInterp_grid _ _ _ (fun a b hab _ => mockTs_lt (by norm_num) 10 nd hDT hab) _ hk5, hval]

/-- The defaults of `simlc`: 200 days every 2 days, lags from -10 to 50; epoch 30 is day 60. -/
example (C : ℝ → ℝ) : ∃ line, mockLine (10 * 50000) (mockTs 10 10 50000 0.01)
      (fun i => C (mockTs 10 10 50000 0.01 i)) [⟨.gauss, 1, 10, 5⟩, ⟨.gauss, 1, 30, 5⟩] (-10) 50 200 2 = some line ∧
    line 30 = 1 + 0.01 * ∑ j ∈ range (mockNtau (-10) 50 0.01),
      mockResp [⟨.gauss, 1, 10, 5⟩, ⟨.gauss, 1, 30, 5⟩] (-10) 50 0.01 j * (C (60 - mockTau (-10) 0.01 j) - 1) := by
  have hf : ⌊(200 : ℝ) / 2 + 0.5⌋₊ = 100 := by
    rw [Nat.floor_eq_iff (by norm_num)]; norm_num
  have ht : mockLineTime 200 2 30 = 60 := by
    unfold mockLineTime
    rw [hf]; norm_num
  have hn : 50000 = ⌊(200 : ℝ) * 2.5 / 0.01⌋₊ := by
    symm
    rw [Nat.floor_eq_iff (by norm_num)]; norm_num
  have := C132_simlc C [⟨.gauss, 1, 10, 5⟩, ⟨.gauss, 1, 30, 5⟩] 200 2 (-10) 50 (-1000) (by norm_num)
    (by norm_num) 50000 hn (by norm_num) (by norm_num) (by norm_num) 30 6000
    (by rw [ht]; norm_num) (by rw [ht]; norm_num)
  rw [ht] at this
  exact this

/-- A norm that is not zero: one top hat around the middle of the lag range. -/
example : mockNorm [⟨.tophat, 1, 1, 1⟩] 0 2 1 ≠ 0 := by
  have hn : mockNtau 0 2 1 = 2 := by
    unfold mockNtau
    rw [Nat.floor_eq_iff (by norm_num)]; norm_num
  unfold mockNorm
  rw [hn, Finset.sum_range_succ, Finset.sum_range_one]
  norm_num [mockRaw, mockTf, mockTau]

end Mica
