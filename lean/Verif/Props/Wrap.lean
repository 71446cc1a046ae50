import Verif.Model.Wrap
import Mathlib.Tactic.Linarith
import Mathlib.Tactic.FieldSimp
import Mathlib.Tactic.Ring
import Mathlib.Tactic.NormNum

/-!
# C01-C04: wrapping of proposals, prior ranges, fixed parameters
-/

namespace Mica

/-- **C01.** Folding any `x` into a non-empty range returns a value in `[lo, hi)` that differs from
`x` by a whole number of range widths. -/
theorem C01_wrap_range (x lo hi : ℝ) (h : lo < hi) :
    ∃ y, dnestWrap x lo hi = .ok y ∧ lo ≤ y ∧ y < hi ∧ ∃ k : ℤ, x = y + k * (hi - lo) := by
  have hw : 0 < hi - lo := sub_pos.mpr h
  refine ⟨((x - lo) / (hi - lo) - (⌊(x - lo) / (hi - lo)⌋ : ℝ)) * (hi - lo) + lo, ?_, ?_, ?_, ?_⟩
  · simp [dnestWrap, cmod, hw]
  · have := Int.floor_le ((x - lo) / (hi - lo))
    have : 0 ≤ ((x - lo) / (hi - lo) - (⌊(x - lo) / (hi - lo)⌋ : ℝ)) * (hi - lo) :=
      mul_nonneg (by linarith) hw.le
    linarith
  · have h1 := Int.lt_floor_add_one ((x - lo) / (hi - lo))
    have : ((x - lo) / (hi - lo) - (⌊(x - lo) / (hi - lo)⌋ : ℝ)) * (hi - lo) < 1 * (hi - lo) :=
      mul_lt_mul_of_pos_right (by linarith) hw
    linarith
  · refine ⟨⌊(x - lo) / (hi - lo)⌋, ?_⟩
    have : (x - lo) / (hi - lo) * (hi - lo) = x - lo := div_mul_cancel₀ _ hw.ne'
    linarith

/-- **C01.** A value already inside the range is unchanged. -/
theorem C01_wrap_id (x lo hi : ℝ) (h1 : lo ≤ x) (h2 : x < hi) : dnestWrap x lo hi = .ok x := by
  obtain ⟨y, hy, hl, hu, k, hk⟩ := C01_wrap_range x lo hi (lt_of_le_of_lt h1 h2)
  have hw : 0 < hi - lo := by linarith
  have hk0 : k = 0 := by
    have h3 : (k : ℝ) * (hi - lo) < 1 * (hi - lo) := by linarith
    have h4 : (-1 : ℝ) * (hi - lo) < k * (hi - lo) := by linarith
    have h5 : (k : ℝ) < 1 := lt_of_mul_lt_mul_right h3 hw.le
    have h6 : (-1 : ℝ) < k := lt_of_mul_lt_mul_right h4 hw.le
    have h7 : k < 1 := by exact_mod_cast h5
    have h8 : -1 < k := by exact_mod_cast h6
    omega
  rw [hy]; simp [hk, hk0]

/-- The wrapped value is determined by those facts (so the specification is complete): any value in
the range congruent to `x` is the returned one. -/
theorem C01_wrap_unique (x lo hi z : ℝ) (h1 : lo ≤ z) (h2 : z < hi) (k : ℤ)
    (hx : x = z + k * (hi - lo)) : dnestWrap x lo hi = .ok z := by
  have hw : 0 < hi - lo := by linarith
  have h3 : (x - lo) / (hi - lo) = (z - lo) / (hi - lo) + k := by
    rw [hx]; field_simp; ring
  have := C01_wrap_id z lo hi h1 h2
  simp only [dnestWrap, cmod, hw, if_true, Res.ok_bind, Res.pure_eq] at this ⊢
  rw [h3, Int.floor_add_intCast]
  push_cast
  rw [← this]; ring_nf

/-- **C01.** The alternative `wrap_limit` returns the value of the range that is nearest to `x`. -/
theorem C01_limit (x lo hi : ℝ) (h : lo ≤ hi) :
    lo ≤ wrapLimit x lo hi ∧ wrapLimit x lo hi ≤ hi ∧
      ∀ z, lo ≤ z → z ≤ hi → |wrapLimit x lo hi - x| ≤ |z - x| ∧ (|wrapLimit x lo hi - x| = |z - x| → z = wrapLimit x lo hi) := by
  unfold wrapLimit
  refine ⟨le_max_right _ _, max_le (min_le_right _ _) h, fun z h1 h2 => ?_⟩
  rcases le_total x lo with a | a
  · rw [min_eq_left (a.trans h), max_eq_right a, abs_of_nonneg (by linarith), abs_of_nonneg (by linarith)]
    exact ⟨by linarith, fun e => by linarith⟩
  · rcases le_total x hi with b | b
    · rw [min_eq_left b, max_eq_left a]
      simp only [sub_self, abs_zero, abs_nonneg, true_and]
      intro e
      have := abs_eq_zero.1 e.symm
      linarith
    · rw [min_eq_right b, max_eq_left h, abs_of_nonpos (by linarith), abs_of_nonpos (by linarith)]
      exact ⟨by linarith, fun e => by linarith⟩

example : wrapLimit 12 0 10 = 10 ∧ wrapLimit (-3) 0 10 = 0 ∧ wrapLimit 4 0 10 = 4 := by
  norm_num [wrapLimit]

/-- A degenerate range folds everything to its only point; an inverted range stops the program. -/
theorem C01_wrap_degenerate (x lo hi : ℝ) :
    (lo = hi → dnestWrap x lo hi = .ok lo) ∧ (hi < lo → dnestWrap x lo hi = .exit) := by
  constructor
  · rintro rfl; simp [dnestWrap, cmod]
  · intro h
    have h1 : ¬ (0 < hi - lo) := by linarith
    have h2 : hi - lo ≠ 0 := by intro h2; linarith
    simp only [dnestWrap, cmod, if_neg h1, if_neg h2, Res.exit_bind]

example : dnestWrap 7.5 1 3 = .ok 1.5 :=
  C01_wrap_unique 7.5 1 3 1.5 (by norm_num) (by norm_num) 3 (by norm_num)

example : dnestWrap (-0.5) 1 3 = .ok 1.5 :=
  C01_wrap_unique (-0.5) 1 3 1.5 (by norm_num) (by norm_num) (-1) (by norm_num)

/-- **C02.** Folding an integer modulo a positive count gives an index in `[0, count)` congruent to
the proposal. -/
theorem C02_modInt (y x : ℤ) (hx : 0 < x) :
    ∃ r, modInt y x = .ok r ∧ 0 ≤ r ∧ r < x ∧ x ∣ y - r := by
  have hx0 : x ≠ 0 := hx.ne'
  unfold modInt
  rw [if_neg hx0]
  split
  · rename_i h
    refine ⟨_, rfl, ?_, ?_, ?_⟩
    · rw [Int.tdiv_eq_ediv_of_nonneg h]; have := Int.mul_ediv_self_le (x := y) hx0; nlinarith
    · rw [Int.tdiv_eq_ediv_of_nonneg h]; have := Int.lt_mul_ediv_self_add (x := y) hx; nlinarith
    · exact ⟨y.tdiv x, by ring⟩
  · rename_i h
    have h' : 0 ≤ -y - 1 := by omega
    refine ⟨_, rfl, ?_, ?_, ?_⟩
    · rw [Int.tdiv_eq_ediv_of_nonneg h']
      have := Int.lt_mul_ediv_self_add (x := -y - 1) hx; nlinarith
    · rw [Int.tdiv_eq_ediv_of_nonneg h']
      have := Int.mul_ediv_self_le (x := -y - 1) hx0; nlinarith
    · exact ⟨-1 - (-y - 1).tdiv x, by ring⟩

/-- **C02.** Equivalently: it is the mathematical remainder. -/
theorem C02_modInt_eq_emod (y x : ℤ) (hx : 0 < x) : modInt y x = .ok (y % x) := by
  obtain ⟨r, hr, h0, h1, h2⟩ := C02_modInt y x hx
  rw [hr]
  have : y % x = r % x := by
    obtain ⟨k, hk⟩ := h2
    have : y = r + x * k := by linarith
    rw [this, Int.add_mul_emod_self_left]
  rw [this, Int.emod_eq_of_lt h0 h1]

example : modInt (-1) 5 = .ok 4 := by decide
example : modInt 12 5 = .ok 2 := by decide

/-! ## C03, C04 -/

/-- Specification: every free parameter lies within its prior range. -/
def InPrior {n : Nat} (c : ConCfg n) (pm : Fin n → ℝ) : Prop :=
  ∀ i, c.fix i = none → c.lo i ≤ pm i ∧ pm i ≤ c.hi i

/-- Specification: every fixed parameter has its fixed value. -/
def FixedHeld {n : Nat} (c : ConCfg n) (pm : Fin n → ℝ) : Prop :=
  ∀ i v, c.fix i = some v → pm i = v

theorem pickFree_free {n : Nat} (c : ConCfg n) (l : List (Fin n)) (w : Fin n)
    (h : pickFree c l = .ok w) : c.fix w = none := by
  induction l with
  | nil => simp [pickFree] at h
  | cons a l ih =>
    simp only [pickFree] at h
    split at h
    · exact ih h
    · rename_i hn
      cases h
      simpa using hn

theorem wrap_closed (x lo hi y : ℝ) (h : dnestWrap x lo hi = .ok y) : lo ≤ y ∧ y ≤ hi := by
  rcases lt_trichotomy lo hi with h1 | h1 | h1
  · obtain ⟨z, hz, h2, h3, _⟩ := C01_wrap_range x lo hi h1
    rw [h] at hz; cases hz; exact ⟨h2, h3.le⟩
  · rw [(C01_wrap_degenerate x lo hi).1 h1] at h; cases h; exact ⟨le_rfl, h1.le⟩
  · rw [(C01_wrap_degenerate x lo hi).2 h1] at h; cases h

theorem perturbCon_spec {n : Nat} (c : ConCfg n) (s : ConStep n) (pm q : Fin n → ℝ)
    (h : perturbCon c s pm = .ok q) :
    ∃ w, c.fix w = none ∧ c.lo w ≤ q w ∧ q w ≤ c.hi w ∧ ∀ i, i ≠ w → q i = pm i := by
  unfold perturbCon at h
  obtain ⟨w, hw, h⟩ := Res.bind_eq_ok.1 h
  obtain ⟨x, hx, h⟩ := Res.bind_eq_ok.1 h
  cases h
  refine ⟨w, pickFree_free _ _ _ hw, ?_, ?_, ?_⟩
  · simpa using (wrap_closed _ _ _ _ hx).1
  · simpa using (wrap_closed _ _ _ _ hx).2
  · intro i hi; simp [Function.update_of_ne hi]

/-- **C03.** From any prior draw (uniform numbers in `[0,1)`), after any sequence of perturbations
(any indices, step sizes, levels, limits, and any accept/reject decisions) every free parameter is
inside its prior range. -/
theorem C03_in_prior {n : Nat} (c : ConCfg n) (hr : ∀ i, c.lo i ≤ c.hi i)
    (u : Fin n → ℝ) (hu : ∀ i, 0 ≤ u i ∧ u i < 1)
    (steps : List (ConStep n × Bool)) (pm : Fin n → ℝ)
    (h : perturbConRun c steps (fromPriorCon c u) = .ok pm) : InPrior c pm := by
  have h0 : InPrior c (fromPriorCon c u) := by
    intro i hi
    have := hr i; have := hu i
    simp only [fromPriorCon, hi]
    constructor <;> nlinarith
  generalize fromPriorCon c u = p0 at h h0
  induction steps generalizing p0 with
  | nil => cases h; exact h0
  | cons a l ih =>
    obtain ⟨s, keep⟩ := a
    simp only [perturbConRun] at h
    obtain ⟨q, hq, h⟩ := Res.bind_eq_ok.1 h
    refine ih _ h ?_
    split
    · obtain ⟨w, _, hl, hh, hne⟩ := perturbCon_spec c s p0 q hq
      intro i hi
      by_cases hiw : i = w
      · subst hiw; exact ⟨hl, hh⟩
      · rw [hne i hiw]; exact h0 i hi
    · exact h0

/-- **C04.** Fixed parameters have exactly their fixed value at the start and after any sequence of
perturbations. -/
theorem C04_fixed {n : Nat} (c : ConCfg n) (u : Fin n → ℝ)
    (steps : List (ConStep n × Bool)) (pm : Fin n → ℝ)
    (h : perturbConRun c steps (fromPriorCon c u) = .ok pm) : FixedHeld c pm := by
  have h0 : FixedHeld c (fromPriorCon c u) := by
    intro i v hi; simp [fromPriorCon, hi]
  generalize fromPriorCon c u = p0 at h h0
  induction steps generalizing p0 with
  | nil => cases h; exact h0
  | cons a l ih =>
    obtain ⟨s, keep⟩ := a
    simp only [perturbConRun] at h
    obtain ⟨q, hq, h⟩ := Res.bind_eq_ok.1 h
    refine ih _ h ?_
    split
    · obtain ⟨w, hw, _, _, hne⟩ := perturbCon_spec c s p0 q hq
      intro i v hi
      have : i ≠ w := by rintro rfl; simp [hw] at hi
      rw [hne i this]; exact h0 i v hi
    · exact h0

/-- The perturbation can only get stuck when the random stream never names a free parameter; with
proper ranges it never exits: a run whose index streams each contain a free parameter returns. -/
theorem C03_total {n : Nat} (c : ConCfg n) (hr : ∀ i, c.lo i ≤ c.hi i)
    (steps : List (ConStep n × Bool)) (p0 : Fin n → ℝ)
    (hs : ∀ s ∈ steps, ∃ w ∈ s.1.cands, c.fix w = none) :
    ∃ pm, perturbConRun c steps p0 = .ok pm := by
  induction steps generalizing p0 with
  | nil => exact ⟨p0, rfl⟩
  | cons a l ih =>
    obtain ⟨s, keep⟩ := a
    have hp : ∃ w, pickFree c s.cands = .ok w := by
      obtain ⟨w, hw, hf⟩ := hs (s, keep) (by simp)
      revert hw
      generalize s.cands = cs
      intro hw
      induction cs with
      | nil => simp at hw
      | cons b bs ihb =>
        simp only [pickFree]
        split
        · rename_i hb
          refine ihb ?_
          rcases List.mem_cons.1 hw with h | h
          · subst h; simp [hf] at hb
          · exact h
        · exact ⟨b, rfl⟩
    obtain ⟨w, hw⟩ := hp
    have hx : ∃ x, dnestWrap (p0 w + s.h * conWidth c s w) (c.lo w) (c.hi w) = .ok x := by
      rcases lt_or_eq_of_le (hr w) with h1 | h1
      · obtain ⟨y, hy, _⟩ := C01_wrap_range (p0 w + s.h * conWidth c s w) _ _ h1
        exact ⟨y, hy⟩
      · exact ⟨_, (C01_wrap_degenerate _ _ _).1 h1⟩
    obtain ⟨x, hx⟩ := hx
    simp only [perturbConRun, perturbCon, hw, hx, Res.ok_bind, Res.pure_eq]
    exact ih _ (fun t ht => hs t (by simp [ht]))

/-- Non-vacuity: a two-parameter model, one parameter fixed, a step that leaves the range. -/
example : ∃ (c : ConCfg 2) (u : Fin 2 → ℝ) (steps : List (ConStep 2 × Bool)) (pm : Fin 2 → ℝ),
    (∀ i, c.lo i ≤ c.hi i) ∧ (∀ i, 0 ≤ u i ∧ u i < 1) ∧ c.fix 0 = some 5 ∧ c.fix 1 = none ∧
    perturbConRun c steps (fromPriorCon c u) = .ok pm ∧ pm ≠ fromPriorCon c u ∧ steps ≠ [] := by
  let c : ConCfg 2 := ⟨fun _ => 0, fun _ => 1, fun i => if i = 0 then some 5 else none⟩
  let s : ConStep 2 := ⟨[0, 1], 3 / 4, 0, 1, fun _ _ => (0, 0)⟩
  refine ⟨c, fun _ => 1 / 2, [(s, true)], Function.update (fromPriorCon c fun _ => 1 / 2) 1 (1 / 4),
    ?_, ?_, rfl, rfl, ?_, ?_, by simp⟩
  · intro i; simp [c]
  · intro i; norm_num
  · have h1 : pickFree c s.cands = .ok 1 := by simp [pickFree, c, s]
    have h2 : dnestWrap ((fromPriorCon c fun _ => 1 / 2) 1 + s.h * conWidth c s 1) (c.lo 1) (c.hi 1)
        = .ok (1 / 4) := by
      refine C01_wrap_unique _ _ _ _ ?_ ?_ 1 ?_ <;> norm_num [c, s, fromPriorCon, conWidth]
    simp only [perturbConRun, perturbCon, h1, h2, Res.ok_bind, Res.pure_eq, if_true]
  · intro h
    have := congrFun h 1
    norm_num [fromPriorCon, c] at this

end Mica
