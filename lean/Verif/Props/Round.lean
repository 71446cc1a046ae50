import Verif.Proof.Round
import Verif.Props.Wrap
import Mathlib.Data.Fin.VecNotation

/-!
# C122: prior ranges in rounded arithmetic
-/

namespace Mica

/-- **C122.** Whatever set of numbers is representable (0, 1 and the lower limit among them) and
however ties are rounded, `dnest_wrap` never returns less than the lower limit, and never more than
what the width, computed and added back in rounded arithmetic, gives. -/
theorem C122_wrap {F : Set ℝ} {rd : ℝ → ℝ} (h : Nearest F rd) (h0 : (0 : ℝ) ∈ F) (h1 : (1 : ℝ) ∈ F)
    (lo hi x : ℝ) (hlo : lo ∈ F) (hle : lo ≤ hi) :
    ∃ r, rWrap rd x lo hi = .ok r ∧ r ∈ F ∧ lo ≤ r ∧ r ≤ rd (rd (hi - lo) + lo) :=
  rWrap_spec h h0 h1 hlo hle x

/-- **C122.** How far the upper limit can be passed: by at most twice the rounding error of the
width.  In particular not at all when the width is representable. -/
theorem C122_overshoot {F : Set ℝ} {rd : ℝ → ℝ} (h : Nearest F rd) (h0 : (0 : ℝ) ∈ F)
    (h1 : (1 : ℝ) ∈ F) (lo hi x r : ℝ) (hlo : lo ∈ F) (hhi : hi ∈ F) (hle : lo ≤ hi)
    (hr : rWrap rd x lo hi = .ok r) :
    r ≤ hi + 2 * |rd (hi - lo) - (hi - lo)| ∧ (hi - lo ∈ F → r ≤ hi) := by
  obtain ⟨r', hr', -, -, hup⟩ := rWrap_spec h h0 h1 hlo hle x
  have : r' = r := by rw [hr'] at hr; cases hr; rfl
  subst this
  constructor
  · have h2 := h.near (rd (hi - lo) + lo) hi hhi
    have h3 := (abs_le.1 h2).2
    have h4 : hi - (rd (hi - lo) + lo) = -(rd (hi - lo) - (hi - lo)) := by ring
    rw [h4, abs_neg] at h3
    have h5 := le_abs_self (rd (hi - lo) - (hi - lo))
    linarith
  · intro hm
    rw [h.fix hm, sub_add_cancel, h.fix hhi] at hup
    exact hup

/-- **C122.** With double-precision numbers the result can exceed the upper limit only for proposals
that lie below the lower limit by less than `2^-51` of the width: every other proposal is folded into
`[lo, hi]`. -/
theorem C122_inside {rd : ℝ → ℝ} (h : Nearest F64 rd) (lo hi x : ℝ) (hlo : lo ∈ F64) (hhi : hi ∈ F64)
    (hx : x ∈ F64) (hle : lo ≤ hi)
    (hn : ¬ (lo - (2 : ℝ) ^ (-51 : ℤ) * (hi - lo) < x ∧ x < lo)) :
    ∃ r, rWrap rd x lo hi = .ok r ∧ r ∈ F64 ∧ lo ≤ r ∧ r ≤ hi := by
  obtain ⟨r, hr, hm, hl, -⟩ := rWrap_spec h f64_zero f64_one hlo hle x
  refine ⟨r, hr, hm, hl, rWrap_le h hlo hhi hx hle hr ?_⟩
  by_contra hc
  push Not at hc
  exact hn ⟨hc.2, hc.1⟩

/-- **C122.** The invariant over any number of moves of the continuum model: every free parameter is
at least its lower limit and at most the upper limit as rounded arithmetic reaches it; when the
widths are representable, inside the closed prior range. -/
theorem C122_run_partial {F : Set ℝ} {rd : ℝ → ℝ} (h : Nearest F rd) (h0 : (0 : ℝ) ∈ F)
    (h1 : (1 : ℝ) ∈ F) {n : Nat} (c : ConCfg n) (hlo : ∀ i, c.lo i ∈ F) (hhi : ∀ i, c.hi i ∈ F)
    (hle : ∀ i, c.lo i ≤ c.hi i) (u : Fin n → ℝ) (hu : ∀ i, 0 ≤ u i ∧ u i < 1)
    (steps : List (ConStep n × Bool)) (pm : Fin n → ℝ)
    (hrun : rPerturbConRun rd c steps (rFromPriorCon rd c u) = .ok pm) (i : Fin n)
    (hi : c.fix i = none) :
    c.lo i ≤ pm i ∧ pm i ≤ c.hi i + 2 * |rd (c.hi i - c.lo i) - (c.hi i - c.lo i)| ∧
      (c.hi i - c.lo i ∈ F → pm i ≤ c.hi i) := by
  have key : c.lo i ≤ pm i ∧ pm i ≤ rd (rd (c.hi i - c.lo i) + c.lo i) := by
    have hp0 : c.lo i ≤ rFromPriorCon rd c u i ∧
        rFromPriorCon rd c u i ≤ rd (rd (c.hi i - c.lo i) + c.lo i) := by
      have hu' := hu i
      have hW : 0 ≤ rd (c.hi i - c.lo i) := h.ge_of_ge h0 (by linarith [hle i])
      have hd0 : 0 ≤ rd (u i * rd (c.hi i - c.lo i)) := h.ge_of_ge h0 (mul_nonneg hu'.1 hW)
      have hd1 : rd (u i * rd (c.hi i - c.lo i)) ≤ rd (c.hi i - c.lo i) :=
        h.le_of_le (h.mem _) (by nlinarith)
      simp only [rFromPriorCon, hi]
      exact ⟨h.ge_of_ge (hlo i) (by linarith), h.mono (by linarith)⟩
    generalize rFromPriorCon rd c u = p0 at hrun hp0
    induction steps generalizing p0 with
    | nil => cases hrun; exact hp0
    | cons a l ih =>
      obtain ⟨s, keep⟩ := a
      simp only [rPerturbConRun] at hrun
      obtain ⟨q, hq, hrun⟩ := Res.bind_eq_ok.1 hrun
      refine ih _ hrun ?_
      cases keep
      · exact hp0
      · simp only [rPerturbCon] at hq
        obtain ⟨w, -, hq⟩ := Res.bind_eq_ok.1 hq
        obtain ⟨x, hx, hq⟩ := Res.bind_eq_ok.1 hq
        rw [Res.pure_eq] at hq
        cases hq
        simp only [if_true]
        rcases eq_or_ne i w with rfl | hne
        · rw [Function.update_self]
          obtain ⟨r, hr, -, hl, hup⟩ := rWrap_spec h h0 h1 (hlo i) (hle i)
            (rd (p0 i + rd (s.h * rConWidth rd c s i)))
          rw [hr] at hx
          cases hx
          exact ⟨hl, hup⟩
        · rw [Function.update_of_ne hne]
          exact hp0
  refine ⟨key.1, ?_, ?_⟩
  · have h2 := h.near (rd (c.hi i - c.lo i) + c.lo i) (c.hi i) (hhi i)
    have h3 := (abs_le.1 h2).2
    have h4 : c.hi i - (rd (c.hi i - c.lo i) + c.lo i) = -(rd (c.hi i - c.lo i) - (c.hi i - c.lo i)) := by
      ring
    rw [h4, abs_neg] at h3
    have h5 := le_abs_self (rd (c.hi i - c.lo i) - (c.hi i - c.lo i))
    linarith [key.2]
  · intro hm
    have := key.2
    rwa [h.fix hm, sub_add_cancel, h.fix (hhi i)] at this

/-- Limits and a proposal for which the upper limit is passed: the width of
`[-9·2^-54, 2 - 2^-52]` rounds up to `2 + 2^-51`. -/
noncomputable def overLo : ℝ := -9 * (2 : ℝ) ^ (-54 : ℤ)
noncomputable def overHi : ℝ := 2 - (2 : ℝ) ^ (-52 : ℤ)
noncomputable def overX : ℝ := overLo - (2 : ℝ) ^ (-100 : ℤ)

/-- **C122 (negation).** The result can exceed the upper limit, under every rounding to nearest:
a proposal a hair below the lower limit comes back as `2`, above the upper limit `2 - 2^-52`. -/
theorem C122_fails {rd : ℝ → ℝ} (h : Nearest F64 rd) :
    overLo ∈ F64 ∧ overHi ∈ F64 ∧ overX ∈ F64 ∧ overLo < overHi ∧
      rWrap rd overX overLo overHi = .ok 2 ∧ overHi < 2 := by
  have hW : rd (overHi - overLo) = 2 + (2 : ℝ) ^ (-51 : ℤ) := by
    refine rd_up h 1 (2 ^ 52 + 1) (by norm_num) ?_ ?_ ?_ ?_ ?_
    · norm_num [overHi, overLo]
    · norm_num [overHi, overLo]
    · exact ⟨2 ^ 52 + 1, -51, by norm_num, by norm_num, by norm_num⟩
    · norm_num
    · norm_num [overHi, overLo]
  have hy : rd (overX - overLo) = -(2 : ℝ) ^ (-100 : ℤ) := by
    have : overX - overLo = -(2 : ℝ) ^ (-100 : ℤ) := by unfold overX; ring
    rw [this]
    exact h.fix (f64_neg (f64_pow _ (by norm_num)))
  have hq1 : rd (-(2 : ℝ) ^ (-100 : ℤ) / (2 + (2 : ℝ) ^ (-51 : ℤ))) ≤ -(2 : ℝ) ^ (-102 : ℤ) := by
    apply h.le_of_le (f64_neg (f64_pow _ (by norm_num)))
    norm_num
  have hq2 : -(2 : ℝ) ^ (-101 : ℤ) ≤ rd (-(2 : ℝ) ^ (-100 : ℤ) / (2 + (2 : ℝ) ^ (-51 : ℤ))) := by
    apply h.ge_of_ge (f64_neg (f64_pow _ (by norm_num)))
    norm_num
  refine ⟨⟨-9, -54, by norm_num, by norm_num, by unfold overLo; norm_num⟩,
    ⟨2 ^ 53 - 1, -52, by norm_num, by norm_num, by unfold overHi; norm_num⟩,
    ⟨-(9 * 2 ^ 46 + 1), -100, by norm_num, by norm_num, by unfold overX overLo; norm_num⟩,
    by norm_num [overLo, overHi], ?_, by norm_num [overHi]⟩
  unfold rWrap rMod
  rw [hW, hy, if_pos (by norm_num)]
  generalize rd (-(2 : ℝ) ^ (-100 : ℤ) / (2 + (2 : ℝ) ^ (-51 : ℤ))) = q at hq1 hq2
  have hfl : ⌊q⌋ = -1 := by
    norm_num at hq1 hq2
    exact Int.floor_eq_iff.2 ⟨by push_cast; linarith, by push_cast; linarith⟩
  have hf : rd (q - (⌊q⌋ : ℝ)) = 1 := by
    rw [hfl]
    norm_num at hq1 hq2
    refine rd_up h (-1) (2 ^ 53) (by norm_num) ?_ ?_ f64_one (by norm_num) ?_
    · push_cast; norm_num; linarith
    · push_cast; linarith
    · push_cast; norm_num; linarith
  have hm : rd (1 * (2 + (2 : ℝ) ^ (-51 : ℤ))) = 2 + (2 : ℝ) ^ (-51 : ℤ) := by
    rw [one_mul]
    exact h.fix ⟨2 ^ 52 + 1, -51, by norm_num, by norm_num, by norm_num⟩
  have hres : rd (2 + (2 : ℝ) ^ (-51 : ℤ) + overLo) = 2 := by
    refine rd_up h 0 (2 ^ 53) (by norm_num) ?_ ?_ ?_ ?_ ?_
    · norm_num [overLo]
    · norm_num [overLo]
    · exact ⟨1, 1, by norm_num, by norm_num, by norm_num⟩
    · norm_num
    · norm_num [overLo]
  rw [hf, hm, Res.ok_bind, Res.pure_eq, hres]

/-- One free parameter with the range above, and one kept move of it, with the width of the prior
range. -/
noncomputable def overCfg : ConCfg 1 := ⟨fun _ => overLo, fun _ => overHi, fun _ => none⟩
noncomputable def overStep : ConStep 1 :=
  ⟨[0], -((2 ^ 52 - 1) * (2 : ℝ) ^ (-153 : ℤ)), 0, 1, fun _ _ => (0, 0)⟩

/-- **C122 (negation).** So a run can leave the prior range: the first particle is drawn at the lower
limit (random number 0) and one move takes the parameter above the upper limit. -/
theorem C122_run_fails {rd : ℝ → ℝ} (h : Nearest F64 rd) :
    ∃ pm, rPerturbConRun rd overCfg [(overStep, true)] (rFromPriorCon rd overCfg fun _ => 0) = .ok pm ∧
      overCfg.hi 0 < pm 0 := by
  obtain ⟨hlo, hhi, hX, -, hr, hlt⟩ := C122_fails h
  have hW : rd (overHi - overLo) = 2 + (2 : ℝ) ^ (-51 : ℤ) := by
    refine rd_up h 1 (2 ^ 52 + 1) (by norm_num) ?_ ?_ ?_ ?_ ?_
    · norm_num [overHi, overLo]
    · norm_num [overHi, overLo]
    · exact ⟨2 ^ 52 + 1, -51, by norm_num, by norm_num, by norm_num⟩
    · norm_num
    · norm_num [overHi, overLo]
  have h0 : (rFromPriorCon rd overCfg fun _ => 0) = fun _ => overLo := by
    funext i
    simp only [rFromPriorCon, overCfg, zero_mul]
    rw [h.fix f64_zero, add_zero, h.fix hlo]
  have hneg : Nearest F64 (fun x => -rd (-x)) :=
    ⟨fun x => f64_neg (h.mem _), fun x y hy => by
      have := h.near (-x) (-y) (f64_neg hy)
      have e1 : -rd (-x) - x = -(rd (-x) - -x) := by ring
      have e2 : y - x = -(-y - -x) := by ring
      rw [e1, e2, abs_neg, abs_neg]
      exact this⟩
  have hstep : rd (overStep.h * (2 + (2 : ℝ) ^ (-51 : ℤ))) = -(2 : ℝ) ^ (-100 : ℤ) := by
    have h1 := rd_up hneg (x := (2 ^ 52 - 1) * (2 : ℝ) ^ (-153 : ℤ) * (2 + (2 : ℝ) ^ (-51 : ℤ)))
      (y := (2 : ℝ) ^ (-100 : ℤ)) (-101) (2 ^ 53) (by norm_num) (by norm_num) (by norm_num)
      (f64_pow _ (by norm_num)) (by norm_num) (by norm_num)
    have h2 : overStep.h * (2 + (2 : ℝ) ^ (-51 : ℤ)) =
        -((2 ^ 52 - 1) * (2 : ℝ) ^ (-153 : ℤ) * (2 + (2 : ℝ) ^ (-51 : ℤ))) := by
      rw [overStep]; exact neg_mul _ _
    rw [h2, ← h1, neg_neg]
  have hwid : rConWidth rd overCfg overStep 0 = 2 + (2 : ℝ) ^ (-51 : ℤ) := by
    rw [← hW]
    rfl
  have hx : rd (overLo + rd (overStep.h * rConWidth rd overCfg overStep 0)) = overX := by
    rw [hwid, hstep, ← sub_eq_add_neg]
    exact h.fix hX
  refine ⟨Function.update (fun _ => overLo) 0 2, ?_, ?_⟩
  · rw [h0]
    have hp : pickFree overCfg overStep.cands = .ok 0 := rfl
    simp only [rPerturbConRun, rPerturbCon, hp, Res.ok_bind, hx]
    have : rWrap rd overX (overCfg.lo 0) (overCfg.hi 0) = .ok 2 := hr
    rw [this]
    rfl
  · rw [Function.update_self]
    exact hlt

/-! ### Non-vacuity -/

/-- There is such a rounding. -/
example : ∃ rd : ℝ → ℝ, Nearest F64 rd := f64_nearest_exists

/-- A range of representable width: `[-10, 10]`. -/
example (rd : ℝ → ℝ) (h : Nearest F64 rd) (x r : ℝ) (hr : rWrap rd x (-10) 10 = .ok r) : r ≤ 10 :=
  (C122_overshoot h f64_zero f64_one (-10) 10 x r ⟨-10, 0, by norm_num, by norm_num, by norm_num⟩
    ⟨10, 0, by norm_num, by norm_num, by norm_num⟩ (by norm_num) hr).2
    ⟨20, 0, by norm_num, by norm_num, by norm_num⟩

/-- A proposal above the range of the counterexample. -/
example (rd : ℝ → ℝ) (h : Nearest F64 rd) :
    ∃ r, rWrap rd 3 overLo overHi = .ok r ∧ r ∈ F64 ∧ overLo ≤ r ∧ r ≤ overHi := by
  obtain ⟨hlo, hhi, -, hlt, -⟩ := C122_fails h
  exact C122_inside h _ _ 3 hlo hhi ⟨3, 0, by norm_num, by norm_num, by norm_num⟩ hlt.le
    (fun hc => by have := hc.2; norm_num [overLo] at this)

end Mica
