import Verif.Proof.Defaults2
import Verif.Props.Stationary

/-!
# C123, C124: the default callbacks of the sampler library
-/

open MeasureTheory Set
open scoped ENNReal

namespace Mica

/-! ## C123: default prior and default moves -/

/-- **C123.** Every parameter drawn by the default `from_prior` lies in its range, whatever the
Gaussian numbers are. -/
theorem C123_draw {n : ℕ} (c : DefCfg n) (hc : c.Ok) (mem : Fin n → ℝ) (r : Fin n → ℝ × ℝ)
    (hr : ∀ i, (r i).1 ∈ Ico (0 : ℝ) 1) :
    ∃ pm, defFromPrior c r mem n = .ok pm ∧ ∀ i, pm i ∈ Ico (c.lo i) (c.hi i) := by
  refine ⟨_, defFromPrior_eq c hc.lt mem r n, fun i => ?_⟩
  rw [if_pos i.2]
  have h0 := hr i
  have hlt := hc.lt i
  unfold defOne
  cases ht : c.ptype i with
  | uniform => exact ⟨by nlinarith [h0.1], by nlinarith [h0.2]⟩
  | log =>
    have hp := hc.pos i ht
    have hl := Real.log_lt_log hp hlt
    simp only
    constructor
    · rw [← Real.log_le_iff_le_exp hp]; nlinarith [h0.1]
    · rw [← Real.lt_log_iff_exp_lt (hp.trans hlt)]; nlinarith [h0.2]
  | gaussian =>
    obtain ⟨y, hy, h1, h2, -⟩ := C01_wrap_range ((r i).2 * c.sd i + c.mean i) (c.lo i) (c.hi i) hlt
    rw [dnestWrap_folded hlt] at hy
    cases hy
    exact ⟨h1, h2⟩

/-- **C123.** A default move changes only the chosen parameter and keeps it in its range, for every
step width. -/
theorem C123_move {n : ℕ} (c : DefCfg n) (limit : Bool) (s : ConStep n) (w : Fin n) (ws : List (Fin n))
    (hw : s.cands = w :: ws) (hlt : c.lo w < c.hi w) (pm : Fin n → ℝ) :
    ∃ q lh, defPerturb c limit s pm = .ok (q, lh) ∧ q w ∈ Ico (c.lo w) (c.hi w) ∧ (∀ i, i ≠ w → q i = pm i) ∧
      lh = c.logDensity w (q w) - c.logDensity w (pm w) := by
  obtain ⟨y, hy, h1, h2, -⟩ := C01_wrap_range (pm w + s.h * defWidth c limit s w) (c.lo w) (c.hi w) hlt
  refine ⟨Function.update pm w y, (0 - defTerm c w (pm w)) + defTerm c w y, ?_, ?_, ?_, ?_⟩
  · unfold defPerturb
    rw [hw]
    simp only
    rw [hy, Res.ok_bind, Res.pure_eq]
  · rw [Function.update_self]; exact ⟨h1, h2⟩
  · intro i hi; exact Function.update_of_ne hi _ _
  · rw [Function.update_self, defTerm_eq, defTerm_eq]; ring

/-- **C123.** A whole step of the sampler with either of the default moves preserves the mixture over
the levels of the prior that the arguments describe, restricted to likelihoods above the thresholds. -/
theorem C123_step {n : ℕ} (c : DefCfg n) (limit : Bool) (w : Fin n) (ws : List (Fin n))
    (hlt : c.lo w < c.hi w) (τ : Measure ℝ) [IsProbabilityMeasure τ] (o : SOpts) (maxLv : ℕ) (e : Bool)
    (heb : e = false ∨ o.beta = 0) (L : (Fin n → ℝ) → ℝ) (hL : Measurable L) (t : TaskSt n) (which : ℕ)
    (hw : which < t.particles.length) (tie uTie : ℝ) (he : enoughLevels o maxLv t.levels = .ok e)
    (hlim : o.flagLimits = true → t.levels.length ≤ t.limits.length)
    (f : (Fin n → ℝ) → ℕ → ℝ≥0∞) (hf : ∀ j, Measurable fun x => f x j) :
    mixture c.prior L t.levels (levelWeight o e t.levels) (fun x j => ∫⁻ r, endValue which f
        (samplerMove (defPerturb c limit) o L maxLv which (w :: ws) uTie r (withParticle L t which tie x j))
          ∂unif.prod (((randhLaw τ).prod unif).prod (levelStepLaw.prod (unif.prod unif)))) =
      mixture c.prior L t.levels (levelWeight o e t.levels) f :=
  (def_keeps c limit w ws hlt (randhLaw τ) (randhLaw_symm τ)).step o maxLv e heb L hL t which hw
    tie uTie he hlim levelStepLaw levelStepLaw_symm f hf

/-- **C123.** Without Gaussian parameters the first particles have exactly the distribution of the
prior.  (Missing: Gaussian parameters, for which it is false, `C123_first_fails`.) -/
theorem C123_first_partial {n : ℕ} (c : DefCfg n) (hc : c.Ok) (hg : ∀ i, c.ptype i ≠ .gaussian)
    (mem : Fin n → ℝ) : c.startLaw mem = normalised c.prior := by
  choose k hk he using fun i => defLaw_flat c i (hc.lt i) (hc.pos i) (hg i)
  have hs := def_sigma c
  have hfin : ∀ i, IsFiniteMeasure ((volume.restrict (Ico (c.lo i) (c.hi i))).withDensity
      fun x => ENNReal.ofReal (Real.exp (c.logDensity i x))) := by
    intro i
    refine ⟨?_⟩
    have h1 : defLaw c i univ = 1 := measure_univ
    rw [he i, Measure.smul_apply, smul_eq_mul] at h1
    refine lt_of_le_of_ne le_top fun h2 => ?_
    rw [h2] at h1
    by_cases hk0 : k i = 0
    · rw [hk0, zero_mul] at h1; exact zero_ne_one h1
    · rw [ENNReal.mul_top hk0] at h1; exact ENNReal.top_ne_one h1
  have e1 : c.startLaw mem = (∏ i, k i) • c.prior := by
    rw [def_startLaw_pi c hc.lt mem]
    simp only [he]
    exact pi_smul _ hfin k hk
  have : IsProbabilityMeasure (c.startLaw mem) := by
    rw [def_startLaw_pi c hc.lt mem]; infer_instance
  exact eq_normalised e1

/-- **C123 fails for Gaussian priors.** If some parameter has a Gaussian prior on a range of at least
two deviations on both sides of its mean, the first particles do not have the distribution of the
prior, that the moves preserve: values outside the range are folded into it instead of being drawn
again. -/
theorem C123_first_fails {n : ℕ} (c : DefCfg n) (hlt : ∀ i, c.lo i < c.hi i) (i : Fin n)
    (hg : c.ptype i = .gaussian) (hs : 0 < c.sd i) (a : ℝ) (ha : 2 ≤ a)
    (hlo : c.lo i = c.mean i - a * c.sd i) (hhi : c.hi i = c.mean i + a * c.sd i) (mem : Fin n → ℝ) :
    c.startLaw mem ≠ normalised c.prior := by
  intro h
  rw [def_startLaw_pi c hlt mem] at h
  exact def_gauss_ne c i hg hs a ha hlo hhi fun A _ =>
    factor_of_pi (fun i => inferInstance) (def_sigma c) h i A

/-- Three parameters: flat, logarithmic, Gaussian on five deviations. -/
noncomputable def defEx : DefCfg 3 :=
  ⟨![-1, 1, -5], ![2, 100, 5], ![.uniform, .log, .gaussian], fun _ => 0, fun _ => 1⟩

theorem defEx_ok : defEx.Ok := by
  constructor
  · intro i; fin_cases i <;> norm_num [defEx]
  · intro i; fin_cases i <;> simp [defEx]

example (mem : Fin 3 → ℝ) : defEx.startLaw mem ≠ normalised defEx.prior :=
  C123_first_fails defEx defEx_ok.lt 2 rfl (by norm_num [defEx]) 5 (by norm_num)
    (by show (-5 : ℝ) = 0 - 5 * 1; norm_num) (by show (5 : ℝ) = 0 + 5 * 1; norm_num) mem

example (mem : Fin 2 → ℝ) : (DefCfg.startLaw ⟨![-1, 1], ![2, 100], ![.uniform, .log], fun _ => 0, fun _ => 1⟩ mem) =
    normalised (DefCfg.prior (n := 2) ⟨![-1, 1], ![2, 100], ![.uniform, .log], fun _ => 0, fun _ => 1⟩) :=
  C123_first_partial _ ⟨by intro i; fin_cases i <;> norm_num, by intro i; fin_cases i <;> simp⟩
    (by intro i; fin_cases i <;> simp) mem

/-! ## C124: which callbacks are used -/

/-- **C124.** A call either stops (exactly when no likelihood is given) or continues with a complete
function set in which everything the caller gave is kept. -/
theorem C124_complete (flag : ℕ) (f : FptrSet) :
    (f.cal = none ∧ checkFptrset flag f = .exit) ∨
    ∃ g, checkFptrset flag f = .ok g ∧ f.cal.isSome ∧ g.cal = f.cal ∧
      (∀ p ∈ [FptrSet.fromPrior, FptrSet.printParticle, FptrSet.readParticle, FptrSet.calInitial, FptrSet.calRestart,
        FptrSet.perturb, FptrSet.restartAction, FptrSet.acceptAction, FptrSet.killAction],
        (p g).isSome ∧ (∀ x, p f = some x → p g = some x)) := by
  obtain ⟨a, b, d, cal, e, h, i, j, k, l⟩ := f
  cases cal with
  | none => exact Or.inl ⟨rfl, rfl⟩
  | some cal =>
    refine Or.inr ⟨_, rfl, rfl, rfl, ?_⟩
    intro p hp
    simp only [List.mem_cons, List.not_mem_nil, or_false] at hp
    rcases hp with rfl | rfl | rfl | rfl | rfl | rfl | rfl | rfl | rfl
    all_goals
      refine ⟨?_, ?_⟩
      · dsimp only
        first
        | (cases a <;> rfl) | (cases b <;> rfl) | (cases d <;> rfl) | (cases e <;> rfl) | (cases h <;> rfl)
        | (cases i <;> rfl) | (cases j <;> rfl) | (cases k <;> rfl) | (cases l <;> rfl)
      · intro x hx
        dsimp only at hx ⊢
        rw [hx]
        rfl

/-- **C124.** Which default move a call uses: the one the option `-l` of the call *before* asks for
(none for the first call), because the function set is completed before the options are read. -/
theorem C124_chosen (flag : ℕ) (cs : List (Bool × FptrSet)) (rs : List (FptrSet × ℕ))
    (h : dnestCalls flag cs = .ok rs) :
    rs.length = cs.length ∧ ∀ k (hk : k < cs.length) (hk' : k < rs.length), (cs[k].2).perturb = none →
      (rs[k].1).perturb = some (if (if k = 0 then flag else (if (cs[k - 1]).1 then 1 else 0)) = 0 then .dflt else .dfltLimit) ∧
      rs[k].2 = if cs[k].1 then 1 else 0 := by
  induction cs generalizing flag rs with
  | nil => cases h; exact ⟨rfl, fun k hk => absurd hk (Nat.not_lt_zero k)⟩
  | cons a cs ih =>
    obtain ⟨l, f⟩ := a
    simp only [dnestCalls] at h
    obtain ⟨r, hr, h⟩ := Res.bind_eq_ok.1 h
    obtain ⟨rs', hrs, h⟩ := Res.bind_eq_ok.1 h
    rw [Res.pure_eq] at h
    cases h
    obtain ⟨hlen, hall⟩ := ih r.2 rs' hrs
    have hr2 : r.2 = (if l then 1 else 0) ∧ (f.perturb = none → r.1.perturb = some (if flag = 0 then .dflt else .dfltLimit)) := by
      unfold dnestBegin checkFptrset at hr
      cases hcal : f.cal with
      | none => rw [hcal] at hr; cases hr
      | some cal =>
        rw [hcal] at hr
        simp only [Res.pure_eq, Res.ok_bind] at hr
        cases hr
        exact ⟨rfl, fun hp => by simp [hp]⟩
    refine ⟨by simp [hlen], ?_⟩
    intro k hk hk' hp
    cases k with
    | zero => exact ⟨hr2.2 hp, hr2.1⟩
    | succ k =>
      have := hall k (by simpa using hk) (by simpa using hk') hp
      refine ⟨?_, this.2⟩
      rw [List.getElem_cons_succ, this.1]
      cases k with
      | zero => simp [hr2.1]
      | succ k => rfl

/-- **C124.** The right default move is used as long as the option does not change: from a process in
which nothing was run before, calls without `-l` use the plain move. -/
theorem C124_plain_partial (cs : List (Bool × FptrSet)) (rs : List (FptrSet × ℕ)) (h : dnestCalls 0 cs = .ok rs)
    (hl : ∀ x ∈ cs, x.1 = false) (k : ℕ) (hk : k < cs.length) (hk' : k < rs.length)
    (hp : (cs[k].2).perturb = none) : (rs[k].1).perturb = some .dflt ∧ rs[k].2 = 0 := by
  obtain ⟨h1, h2⟩ := (C124_chosen 0 cs rs h).2 k hk hk' hp
  rw [hl _ (List.getElem_mem hk)] at h2
  refine ⟨?_, h2⟩
  rw [h1]
  cases k with
  | zero => rfl
  | succ k =>
    have := hl _ (List.getElem_mem (show k + 1 - 1 < cs.length by omega))
    rw [this]; rfl

/-- The least a caller has to give. -/
def onlyCal : FptrSet := { mallocFptrset with cal := some .user }

/-- **C124 (negation).** The first call with `-l` does not use the level-dependent move (though the
limits are allocated and updated), and a call without `-l` after one with it uses that move although
the limits are not allocated (`limits` was released by the call before). -/
theorem C124_limit_fails : ∃ r₁ r₂, dnestCalls 0 [(true, onlyCal), (false, onlyCal)] = .ok [r₁, r₂] ∧
    r₁.1.perturb = some .dflt ∧ r₁.2 = 1 ∧ r₂.1.perturb = some .dfltLimit ∧ r₂.2 = 0 :=
  ⟨_, _, rfl, rfl, rfl, rfl, rfl⟩

example : ∃ rs, dnestCalls 0 [(false, onlyCal), (false, onlyCal)] = .ok rs ∧ rs.length = 2 := ⟨_, rfl, rfl⟩

end Mica
