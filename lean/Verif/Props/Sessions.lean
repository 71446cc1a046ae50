import Verif.Proof.Sessions

/-!
# C93: interrupting and resuming any number of times

The sampler may be stopped at any moment and resumed from a snapshot written in any earlier state, any number of
times, with another requested number of saves each time, and whatever rows the file of samples holds.
-/

namespace Mica

variable {d : ℕ}

/-- C93: however often a run was interrupted and resumed, level thresholds start at the bottom and never decrease,
every particle is on an existing level whose threshold its likelihood reaches, the recorded likelihood is the one of
its parameters, the counters of the levels are consistent, and the sizes are the configured ones. -/
theorem C93_invariants (o : SOpts) (ho : GoodOpts o) (h32 : o.maxNumLevels < 2 ^ 32) (L : (Fin d → ℝ) → ℝ)
    (hL : ∀ x, -DBL_MAX ≤ L x) (s : Sampler d) (h : Sessions L o s) :
    ThresholdsOK s.levels ∧ (∀ ps ∈ s.tasks, ∀ p ∈ ps, ParticleOK s.levels p ∧ LikelihoodCurrent L p) ∧
    (∀ l ∈ s.levels, CountsOK l) ∧ s.tasks.length = o.totalTask ∧
    (∀ ps ∈ s.tasks, ps.length = o.numParticles) ∧ s.levels.length ≤ o.levelCap := by
  obtain ⟨hi, hs⟩ := sessions_inv hL ho h32 h
  exact ⟨hi.thr, hi.part, hi.counts, hs.nt, fun ps hps => (hs.np ps hps).1, hs.cap⟩

/-- C93: however often a run was interrupted and resumed, its next round has no undefined behaviour. -/
theorem C93_no_ub (o : SOpts) (ho : GoodOpts o) (h32 : o.maxNumLevels < 2 ^ 32) (L : (Fin d → ℝ) → ℝ)
    (hL : ∀ x, -DBL_MAX ≤ L x) (s : Sampler d) (h : Sessions L o s) (i : RoundIn d) (hv : ValidRound o i) :
    round o L i s ≠ .ub :=
  Res.safe_ne_ub ((sessions_inv hL ho h32 h).safe ho hv)

/-- C93: a snapshot of any such state can be resumed with any number of requested saves not yet reached, below 2^32,
and restores the levels, the particles and the number of saves. -/
theorem C93_resumable (o : SOpts) (ho : GoodOpts o) (h32 : o.maxNumLevels < 2 ^ 32) (L : (Fin d → ℝ) → ℝ)
    (hL : ∀ x, -DBL_MAX ≤ L x) (s : Sampler d) (h : Sessions L o s) (n : ℕ) (hn : s.countSaves ≤ n)
    (hn32 : n < 2 ^ 32) (file : List (Particle d)) :
    ∃ s', readRestart { o with maxNumSaves := n } L file (writeRestart o s) = .ok s' ∧
      Sessions L { o with maxNumSaves := n } s' ∧ s'.tasks = s.tasks ∧ s'.levels = s.levels ∧
      s'.countSaves = s.countSaves ∧ s'.saved = file ∧
      (s.countMcmc < 2 ^ 32 → s'.countMcmc = s.countMcmc) := by
  have e : s.countSaves % 2 ^ 32 = s.countSaves := Nat.mod_eq_of_lt (by omega)
  have key := (sessions_inv hL ho h32 h).resume h32 n file (by omega)
  exact ⟨_, key, .resume n file h key, rfl, rfl, e, rfl, Nat.mod_eq_of_lt⟩

/-- What is not restored: the likelihoods collected above the highest level so far.  They are collected anew, so the
next level is created later than it would have been without the interruption. -/
theorem C93_loses_collected (o : SOpts) (L : (Fin d → ℝ) → ℝ) (s s' : Sampler d) (file : List (Particle d))
    (n : ℕ) (h : readRestart { o with maxNumSaves := n } L file (writeRestart o s) = .ok s') :
    s'.allAbove = [] := by
  unfold readRestart at h
  obtain ⟨⟨nS, c1⟩, _, h⟩ := Res.bind_eq_ok.1 h
  obtain ⟨⟨nM, c2⟩, _, h⟩ := Res.bind_eq_ok.1 h
  obtain ⟨⟨nL, c3⟩, _, h⟩ := Res.bind_eq_ok.1 h
  obtain ⟨size, _, h⟩ := Res.bind_eq_ok.1 h
  obtain ⟨⟨lvs, c4⟩, _, h⟩ := Res.bind_eq_ok.1 h
  obtain ⟨⟨as, c5⟩, _, h⟩ := Res.bind_eq_ok.1 h
  obtain ⟨⟨lims, c6⟩, _, h⟩ := Res.bind_eq_ok.1 h
  obtain ⟨⟨xs, c7⟩, _, h⟩ := Res.bind_eq_ok.1 h
  dsimp only at h
  split at h
  · cases h
  · obtain ⟨tasks, _, h⟩ := Res.bind_eq_ok.1 h
    cases h
    rfl

/-- A run that was interrupted after its first save, having created a level, and resumed with five saves requested. -/
example : ∃ s : Sampler 1, Sessions exL { exOpts with maxNumSaves := 5 } s ∧ s.levels.length = 2 ∧
    GoodOpts { exOpts with maxNumSaves := 5 } := by
  obtain ⟨s, ⟨tie, draws, ins, hd, hv, hr⟩, h1, h2⟩ := ex_reachable
  have hs : Sessions exL exOpts s :=
    run_induct (P := fun s => Sessions exL exOpts s) ins _ _ (.start exOpts tie draws hd)
      (fun i hi a b ha _ hab => .round i ha (hv i hi) hab) hr
  have hg : GoodOpts exOpts := by constructor <;> simp
  obtain ⟨s', _, h3, _, h4, _⟩ := C93_resumable exOpts hg (by simp) exL exL_bound s hs 5
    (by
      have := reachable_saves (o := exOpts) (by simp) ⟨tie, draws, ins, hd, hv, hr⟩
      simp at this; omega) (by norm_num) []
  refine ⟨s', h3, ?_, by constructor <;> simp⟩
  rw [h4]
  simpa using congrArg List.length h1

end Mica
