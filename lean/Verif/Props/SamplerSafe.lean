import Verif.Proof.SamplerExample
import Verif.Proof.SamplerSafe2
import Verif.Proof.Kill
import Verif.Proof.Limits

/-!
# C13 (buffers), C14 (lagging particles), C15 (limits), C16 (saves), C59 (agreement on levels)
-/

namespace Mica

variable {d : ℕ}

/-! ## C13 -/

/-- C13 (part): with options the option reader accepts, at least one particle and task, and a
compression above one, no execution of any length has undefined behaviour: no buffer of collected
likelihoods, level table, particle array or limits table is ever accessed out of range.
Missing from the full claim: `compression ≤ 1`, which the code accepts (`C13_compression_one`), and
zero thread steps (`C13_zero_steps`). -/
theorem C13_no_ub_partial (o : SOpts) (ho : GoodOpts o) (L : (Fin d → ℝ) → ℝ)
    (hL : ∀ x, -DBL_MAX ≤ L x) (tie : ℝ) (draws : List (List ((Fin d → ℝ) × ℝ)))
    (hd : ValidDraws o draws) (ins : List (RoundIn d)) (hv : ∀ i ∈ ins, ValidRound o i) :
    run o L ins (initSampler o L tie draws) ≠ .ub :=
  Res.safe_ne_ub (run_safe ho L ins hv _ (init_inv o L hL tie draws) (init_shape L tie draws hd))

theorem mcmcMove_aboveList {o : SOpts} {L : (Fin d → ℝ) → ℝ} {m : ℕ} {i : StepIn d} {t t' : TaskSt d}
    (h : mcmcMove o L m i t = .ok t') : t'.above = t.above := by
  have hu : ∀ {w : ℕ} {u : UPIn d} {t t' : TaskSt d}, updateParticle L w u t = .ok t' → t'.above = t.above := by
    intro w u t t' h
    unfold updateParticle at h
    obtain ⟨_, _, h⟩ := Res.bind_eq_ok.1 h
    obtain ⟨_, _, h⟩ := Res.bind_eq_ok.1 h
    obtain ⟨_, _, h⟩ := Res.bind_eq_ok.1 h
    obtain ⟨_, _, h⟩ := Res.bind_eq_ok.1 h
    cases h; rfl
  have hl : ∀ {w : ℕ} {u : LAIn} {t t' : TaskSt d}, updateLevelAssignment o m w u t = .ok t' → t'.above = t.above := by
    intro w u t t' h
    unfold updateLevelAssignment at h
    obtain ⟨_, _, h⟩ := Res.bind_eq_ok.1 h
    obtain ⟨_, _, h⟩ := Res.bind_eq_ok.1 h
    obtain ⟨_, _, h⟩ := Res.bind_eq_ok.1 h
    obtain ⟨_, _, h⟩ := Res.bind_eq_ok.1 h
    obtain ⟨_, _, h⟩ := Res.bind_eq_ok.1 h
    obtain ⟨_, _, h⟩ := Res.bind_eq_ok.1 h
    obtain ⟨_, _, h⟩ := Res.bind_eq_ok.1 h
    split at h
    · split at h
      · obtain ⟨_, _, h⟩ := Res.bind_eq_ok.1 h
        cases h; rfl
      · cases h; rfl
    · cases h; rfl
  unfold mcmcMove at h
  split at h
  · obtain ⟨t1, h1, h⟩ := Res.bind_eq_ok.1 h
    exact (hl h).trans (hu h1)
  · obtain ⟨t1, h1, h⟩ := Res.bind_eq_ok.1 h
    exact (hu h).trans (hl h1)

/-- C13: whatever the options, a task whose steps have all stayed within memory holds no more collected
likelihoods than fit into what was allocated for them, twice the new-level interval. -/
theorem C13_task_buffer (o : SOpts) (L : (Fin d → ℝ) → ℝ) (m : ℕ) (is : List (StepIn d)) (t t' : TaskSt d)
    (h0 : t.above.length ≤ 2 * o.newLevelInterval) (h : mcmcRun o L m is t = .ok t') :
    t'.above.length ≤ 2 * o.newLevelInterval := by
  induction is generalizing t with
  | nil => cases h; exact h0
  | cons i is ih =>
    simp only [mcmcRun] at h
    obtain ⟨t1, h1, h⟩ := Res.bind_eq_ok.1 h
    refine ih t1 ?_ h
    unfold mcmcStep at h1
    obtain ⟨t2, h2, h1⟩ := Res.bind_eq_ok.1 h1
    have ha := mcmcMove_aboveList h2
    obtain ⟨e, _, h1⟩ := Res.bind_eq_ok.1 h1
    split at h1
    · cases h1; rw [ha]; exact h0
    · obtain ⟨_, _, h1⟩ := Res.bind_eq_ok.1 h1
      obtain ⟨_, _, h1⟩ := Res.bind_eq_ok.1 h1
      split at h1
      · split at h1
        · rename_i hlt
          cases h1
          simp only [List.length_append, List.length_cons, List.length_nil]
          omega
        · cases h1
      · cases h1; rw [ha]; exact h0

/-- C13 (part): the merged buffer, sized as in the code, is large enough for every gather of every
execution when the compression is at least 6/5.  So the "all above overflow" exit never happens. -/
theorem C13_merged_buffer_partial (o : SOpts) (ho : GoodOpts o) (hc : 6 / 5 ≤ o.compression)
    (hB : allAboveMax o.compression o.threadSteps o.totalTask o.newLevelInterval =
      .ok o.sizeAllAboveMax)
    (L : (Fin d → ℝ) → ℝ) (hL : ∀ x, -DBL_MAX ≤ L x) (s : Sampler d) (hs : Reachable o L s)
    (i : RoundIn d) (hv : ValidRound o i) (ts : List (TaskSt d))
    (h : runTasks o L s.levels s.limits s.maxLvRoot s.tasks i.steps = .ok ts) :
    s.allAbove.length + (ts.map (fun t => t.above.length)).sum ≤ o.sizeAllAboveMax := by
  obtain ⟨hi, hsh, hp⟩ := reachable_pool ho hL hs
  have ha := (runTasks_above hi.thr o.threadSteps hv.nSteps hi.part h).1
  rw [hsh.nt] at ha
  have hsum : (ts.map (·.above)).flatten.length = (ts.map (fun t => t.above.length)).sum := by
    rw [List.length_flatten, List.map_map]; rfl
  rw [hsum] at ha
  unfold allAboveMax at hB
  split at hB
  · cases hB
  · rename_i hts
    dsimp only at hB
    have hB := Res.ok.inj hB
    have h3 : 3 ≤ ⌈1 + o.compression⌉₊ := by
      have : (2 : ℝ) < 1 + o.compression := by linarith
      have := (Nat.lt_ceil (n := 2) (a := 1 + o.compression)).2 (by exact_mod_cast this)
      omega
    have hdiv : o.totalTask ≤ o.newLevelInterval / o.threadSteps := by
      rw [Nat.le_div_iff_mul_le (by omega)]; exact ho.chk
    have hT := ho.nt
    set W := o.totalTask * o.threadSteps with hW
    have h6 : 6 * W ≤ ⌈1 + o.compression⌉₊ * o.threadSteps * o.totalTask *
        (o.newLevelInterval / o.threadSteps + 1) := by
      have e : 6 * W = 3 * o.threadSteps * o.totalTask * 2 := by rw [hW]; ring
      rw [e]
      refine Nat.mul_le_mul (Nat.mul_le_mul (Nat.mul_le_mul h3 le_rfl) le_rfl) ?_
      omega
    have hsz : 6 * W ≤ o.sizeAllAboveMax ∧ 2 * o.newLevelInterval ≤ o.sizeAllAboveMax := by
      split at hB <;> omega
    have key : (s.allAbove.length : ℝ) + W ≤ o.sizeAllAboveMax := by
      have hsz1 : (6 : ℝ) * W ≤ o.sizeAllAboveMax := by exact_mod_cast hsz.1
      have hsz2 : (2 : ℝ) * o.newLevelInterval ≤ o.sizeAllAboveMax := by exact_mod_cast hsz.2
      have hchk : (W : ℝ) ≤ o.newLevelInterval := by exact_mod_cast ho.chk
      have hb : poolBound o ≤ o.sizeAllAboveMax - W := by
        unfold poolBound
        refine max_le (by linarith) ?_
        have hc0 : 0 < o.compression - 1 := by linarith
        have hW0 : (0 : ℝ) ≤ W := by positivity
        rw [div_le_iff₀ hc0]
        nlinarith
      linarith
    have : s.allAbove.length + W ≤ o.sizeAllAboveMax := by exact_mod_cast key
    omega

/-- The full claim fails: a compression of one, which the command line accepts, makes the first level
creation read beyond the collected likelihoods, whatever has been collected. -/
theorem C13_compression_one (o : SOpts) (hc : o.compression = 1) (comb : List Level)
    (above : List LogL) : createLevel o comb above = .ub := by
  have hl : (msortC dnestCmp above).length = above.length := (msortC_perm _ _).length_eq
  simp [createLevel, hc, Res.get, hl]

/-- Zero thread steps pass the check of the option reader but divide by zero in the setup. -/
theorem C13_zero_steps (c : ℝ) (T n : ℕ) : T * 0 ≤ n ∧ allAboveMax c 0 T n = .ub :=
  ⟨by omega, by simp [allAboveMax]⟩

example : GoodOpts exOpts ∧ (6 : ℝ) / 5 ≤ exOpts.compression ∧
    allAboveMax exOpts.compression exOpts.threadSteps exOpts.totalTask exOpts.newLevelInterval =
      .ok exOpts.sizeAllAboveMax := by
  refine ⟨⟨by simp, by simp, by simp, by simp, by norm_num⟩, by norm_num, ?_⟩
  have : ⌈(1 : ℝ) + 2⌉₊ = 3 := by norm_num
  simp [allAboveMax, this]

/-! ## C14 -/

/-- C14: replacing lagging particles changes no particle that is not lagging; if some particle is not
lagging, each lagging particle becomes a copy of one that is not; if all are lagging nothing changes.
`e` tells whether levels are enough. -/
theorem C14_replacement (o : SOpts) (m : ℕ) (ls : List Level) (k : KillIn)
    (ps ps' : List (Particle d)) (e : Bool) (he : enoughLevels o m ls = .ok e)
    (hn : ps.length = o.numParticles) (h : killLagging o m ls k ps = .ok ps') :
    ps'.length = ps.length ∧
    (∀ (j : ℕ) (p : Particle d) (u : ℝ), ps[j]? = some p → k.u[j]? = some u →
      ¬ Lagging (pushOf o.lam e ls.length p.level) u → ps'[j]? = some p) ∧
    (∀ (j : ℕ) (p : Particle d) (u : ℝ), ps[j]? = some p → k.u[j]? = some u →
      Lagging (pushOf o.lam e ls.length p.level) u →
      (∃ (c : ℕ) (q : Particle d) (v : ℝ), ps[c]? = some q ∧ k.u[c]? = some v ∧
        ¬ Lagging (pushOf o.lam e ls.length q.level) v ∧ ps'[j]? = some q) ∨
      ((∀ (c : ℕ) (q : Particle d) (v : ℝ), ps[c]? = some q → k.u[c]? = some v →
        Lagging (pushOf o.lam e ls.length q.level) v) ∧ ps' = ps)) := by
  unfold killLagging at h
  obtain ⟨⟨good, mx⟩, hm, h⟩ := Res.bind_eq_ok.1 h
  obtain ⟨hgl, hflag⟩ := killMark_flags hm
  have hpush : ∀ (w : ℕ) (a : ℝ), logPush o m ls w = .ok a → a = pushOf o.lam e ls.length w := by
    intro w a ha
    unfold logPush at ha
    split at ha
    · cases ha
    · rw [he, Res.ok_bind] at ha
      unfold pushOf
      cases e with
      | true => simp at ha ⊢; exact ha.symm
      | false => simp at ha ⊢; rw [← ha]
  have hflag' : ∀ (j : ℕ) (p : Particle d) (u : ℝ), ps[j]? = some p → k.u[j]? = some u →
      (good[j]? = some true ↔ ¬ Lagging (pushOf o.lam e ls.length p.level) u) ∧
      (good[j]? = some false ↔ Lagging (pushOf o.lam e ls.length p.level) u) := by
    intro j p u hp hu
    obtain ⟨u', a, hu', ha, hg⟩ := hflag j p hp
    rw [hu] at hu'; cases hu'
    have := hpush _ _ ha
    subst this
    have hk : (u ≤ killProb (pushOf o.lam e ls.length p.level)) ↔
      Lagging (pushOf o.lam e ls.length p.level) u := Iff.rfl
    rw [hg]
    by_cases hlag : Lagging (pushOf o.lam e ls.length p.level) u
    · have := hk.2 hlag
      simp [hlag, this]
    · have := mt hk.1 hlag
      simp [hlag, this]
  dsimp only at h
  split at h
  · obtain ⟨h1, h2, h3⟩ := killCopy_spec (ps0 := ps) (ps := ps) (i := 0) (by simp) rfl
      (fun _ _ => rfl) (by omega) h
    refine ⟨h1, ?_, ?_⟩
    · intro j p u hp hu hlag
      rw [h2 j ((hflag' j p u hp hu).1.2 hlag), hp]
    · intro j p u hp hu hlag
      left
      obtain ⟨c, hc, hj⟩ := h3 j ((hflag' j p u hp hu).2.2 hlag)
      have hcl : c < ps.length := by rw [← hgl]; exact (List.getElem?_eq_some_iff.1 hc).1
      obtain ⟨v, a, hv, _, _⟩ := hflag c ps[c] (by simp [hcl])
      exact ⟨c, ps[c], v, by simp [hcl], hv, (hflag' c ps[c] v (by simp [hcl]) hv).1.1 hc,
        by rw [hj]; simp [hcl]⟩
  · rename_i hcnt
    cases h
    have hall : ∀ b ∈ good, false = b := by
      rw [← List.count_eq_length]
      have := List.count_le_length (a := false) (l := good)
      omega
    refine ⟨rfl, fun j p u hp _ _ => hp, ?_⟩
    intro j p u hp hu hlag
    right
    refine ⟨?_, rfl⟩
    intro c q v hq hv
    obtain ⟨v', a, _, _, hg⟩ := hflag c q hq
    have hb := hall _ (List.mem_of_getElem? hg)
    rw [← hb] at hg
    exact (hflag' c q v hq hv).2.1 hg

/-- C14: the replacement can always finish: for every population at existing levels and every outcome
of the marking there are random choices with which it ends normally. -/
theorem C14_total (o : SOpts) (m : ℕ) (ls : List Level) (us : List ℝ) (ps : List (Particle d))
    (e : Bool) (he : enoughLevels o m ls = .ok e) (hn : ps.length = o.numParticles)
    (hu : us.length = ps.length) (hp : ∀ p ∈ ps, p.level < ls.length) :
    ∃ at_ ps', (∀ a ∈ at_, ∀ c ∈ a, c.1 < ps.length) ∧
      killLagging o m ls ⟨us, at_⟩ ps = .ok ps' := by
  have hp' : ∀ p ∈ ps, p.level ≤ ls.length := fun p h => (hp p h).le
  obtain ⟨⟨good, mx⟩, hm⟩ := killMark_total he ps us (-DBL_MAX) hu hp'
  obtain ⟨hgl, _⟩ := killMark_flags hm
  by_cases hcnt : good.count false < o.numParticles
  · have : ∃ c : ℕ, good[c]? = some true := by
      by_contra hno
      push Not at hno
      have : good.count false = good.length := by
        rw [List.count_eq_length]
        intro b hb
        obtain ⟨c, hc, rfl⟩ := List.mem_iff_getElem.1 hb
        have := hno c
        rw [List.getElem?_eq_getElem hc] at this
        cases hgc : good[c] with
        | false => rfl
        | true => rw [hgc] at this; exact absurd rfl this
      omega
    obtain ⟨c, hc⟩ := this
    have hcl : c < ps.length := by rw [← hgl]; exact (List.getElem?_eq_some_iff.1 hc).1
    obtain ⟨ps', h⟩ := killCopy_total he good mx c hc good 0 ps hp' hcl (by omega)
    refine ⟨List.replicate good.length [(c, 0)], ps', ?_, ?_⟩
    · intro a ha x hx
      rw [List.eq_of_mem_replicate ha] at hx
      simp at hx; subst hx; exact hcl
    · simp only [killLagging, hm, Res.ok_bind]
      rw [if_pos hcnt]; exact h
  · exact ⟨[], ps, by simp, by simp only [killLagging, hm, Res.ok_bind]; rw [if_neg hcnt]; rfl⟩

/-- Two particles, three levels: the first particle is lagging and is replaced by the second. -/
example : ∃ ps', killLagging { exOpts with maxNumLevels := 9, numParticles := 2 } 9
      [⟨⟨-DBL_MAX, 0⟩, 0, 0, 0, 0, 0⟩, ⟨⟨1, 0⟩, 0, 0, 0, 0, 0⟩, ⟨⟨2, 0⟩, 0, 0, 0, 0, 0⟩]
      ⟨[0, 2], [[(1, 0)]]⟩
      [(⟨fun _ => 1, ⟨1, 0⟩, 0⟩ : Particle 1), ⟨fun _ => 3, ⟨3, 0⟩, 2⟩] = .ok ps' ∧
    ps'.map (·.level) = [2, 2] := by
  have e1 : ∀ x : ℝ, (0 : ℝ) ≤ killProb x := by
    intro x
    unfold killProb
    have : 1 / (1 + Real.exp (-x - 4)) ≤ 1 := by
      rw [div_le_one (by positivity)]
      have := Real.exp_pos (-x - 4); linarith
    have h2 : 0 ≤ 1 - 1 / (1 + Real.exp (-x - 4)) := by linarith
    positivity
  have e2 : ∀ x : ℝ, ¬ (2 : ℝ) ≤ killProb x := by
    intro x
    unfold killProb
    have h0 : 0 < 1 / (1 + Real.exp (-x - 4)) := by positivity
    have : 1 / (1 + Real.exp (-x - 4)) ≤ 1 := by
      rw [div_le_one (by positivity)]
      have := Real.exp_pos (-x - 4); linarith
    have h3 : (1 - 1 / (1 + Real.exp (-x - 4))) ^ 3 ≤ 1 := pow_le_one₀ (by linarith) (by linarith)
    linarith
  have hpos : ∀ x : ℝ, ¬ (0 : ℝ) ≥ Real.exp x := fun x => by have := Real.exp_pos x; linarith
  simp only [killLagging, killMark, logPush, enoughLevels, e1, e2]
  simp [killCopy, killPick, hpos, Res.get, Res.put, logPush, enoughLevels]

/-! ## C15 -/

/-- C15: an accepted level move makes the limits of the new level contain the particle's position. -/
theorem C15_recorded (o : SOpts) (hf : o.flagLimits = true) (m w : ℕ) (i : LAIn) (t t' : TaskSt d)
    (h : updateLevelAssignment o m w i t = .ok t') (hne : t'.particles ≠ t.particles) :
    ∃ p lim, t'.particles[w]? = some p ∧ t'.limits[p.level]? = some lim ∧ lim.has p.params := by
  rcases updateLevel_shape h with rfl | ⟨p, prop, hp, hpr, h1, _, _, ⟨_, lim, hl, h2⟩ | ⟨hf', _⟩⟩
  · exact absurd rfl hne
  · refine ⟨{ p with level := prop }, extendLim lim p.params, ?_, ?_, extendLim_has _ _⟩
    · rw [h1, List.getElem?_set_self (List.getElem?_eq_some_iff.1 hp).1]
    · rw [h2, List.getElem?_set_self (List.getElem?_eq_some_iff.1 hl).1]
  · rw [hf] at hf'; cases hf'

/-- C15: within a task, limits never shrink, whatever moves follow. -/
theorem C15_task_widens (o : SOpts) (L : (Fin d → ℝ) → ℝ) (m : ℕ) (is : List (StepIn d))
    (t t' : TaskSt d) (h : mcmcRun o L m is t = .ok t') : LimsWiden t.limits t'.limits :=
  (mcmcRun_limits h).1

/-- C15: after a round the common limits contain the earlier ones and those collected by every task
at every existing level. -/
theorem C15_round_widens (o : SOpts) (hf : o.flagLimits = true) (ho : GoodOpts o)
    (L : (Fin d → ℝ) → ℝ) (hL : ∀ x, -DBL_MAX ≤ L x) (i : RoundIn d) (s s' : Sampler d)
    (hs : Reachable o L s) (h : round o L i s = .ok s') :
    LimsWiden s.limits s'.limits ∧
    ∃ ts, runTasks o L s.levels s.limits s.maxLvRoot s.tasks i.steps = .ok ts ∧
      ∀ t ∈ ts, ∀ (j : ℕ) (x : Lim d), j < s.levels.length → t.limits[j]? = some x →
        ∃ y, s'.limits[j]? = some y ∧ x.inside y := by
  obtain ⟨h1, ⟨ts, h2, h3⟩, _⟩ := round_limits hf h
  have hsh := reachable_shape ho hL hs
  refine ⟨h1, ts, h2, fun t ht j x hj hx => h3 t ht j x hj ?_ hx⟩
  have := hsh.cap
  have := hsh.lim
  omega

/-- C15: in every state of every run the limits of a higher level lie inside those of a lower one. -/
theorem C15_nested (o : SOpts) (hf : o.flagLimits = true) (L : (Fin d → ℝ) → ℝ)
    (hL : ∀ x, -DBL_MAX ≤ L x) (s : Sampler d) (hs : Reachable o L s) : LimsNested s.limits :=
  (reachable_limInv hf hL hs).nest

example : ∃ s, Reachable exOpts exL s ∧ exOpts.flagLimits = true ∧ s.levels.length = 2 := by
  obtain ⟨s, hs, h1, _⟩ := ex_reachable
  exact ⟨s, hs, rfl, by simpa using congrArg List.length h1⟩

/-! ## C16 -/

/-- The number of rounds a run made, its counters, and its saves. -/
structure SaveInv (o : SOpts) (r : ℕ) (s : Sampler d) : Prop where
  saved : s.saved.length = s.countSaves
  le : s.countSaves ≤ o.maxNumSaves
  mcmc : s.countMcmc = r * (o.threadSteps * o.totalTask)
  cnt : s.countSaves = min r (r * (o.threadSteps * o.totalTask) / o.saveInterval)

theorem finished_iff {o : SOpts} (hN : 0 < o.maxNumSaves) {s : Sampler d}
    (h : s.countSaves ≤ o.maxNumSaves) : finished o s ↔ s.countSaves = o.maxNumSaves := by
  unfold finished
  constructor
  · rintro ⟨_, h1, h2⟩
    have := Nat.le_of_dvd (by omega) (Nat.dvd_of_mod_eq_zero h2)
    omega
  · intro he
    rw [he]; exact ⟨by omega, by omega, by simp⟩

theorem round_counts {o : SOpts} {L : (Fin d → ℝ) → ℝ} {i : RoundIn d} {s s' : Sampler d}
    (h : round o L i s = .ok s') :
    s'.countMcmc = s.countMcmc + (o.threadSteps * o.totalTask) % 2 ^ 32 ∧
    ((s'.countMcmc ≥ ((s.countSaves + 1) * o.saveInterval) % 2 ^ 32 ∧
      s'.countSaves = s.countSaves + 1 ∧ s'.saved.length = s.saved.length + 1) ∨
     (s'.countMcmc < ((s.countSaves + 1) * o.saveInterval) % 2 ^ 32 ∧
      s'.countSaves = s.countSaves ∧ s'.saved = s.saved)) := by
  unfold round at h
  obtain ⟨ts, _, h⟩ := Res.bind_eq_ok.1 h
  obtain ⟨s1, hs1, h⟩ := Res.bind_eq_ok.1 h
  obtain ⟨root, b, _, _, _, rfl⟩ := gatherTasks_shape hs1
  rcases saveStep_shape h with ⟨hc, ps, p, _, _, rfl⟩ | ⟨hc, rfl⟩
  · exact ⟨rfl, .inl ⟨hc, rfl, by simp⟩⟩
  · exact ⟨rfl, .inr ⟨hc, rfl, rfl⟩⟩

/-- C16: a run never makes more saves than requested, and it is finished exactly when it has made the
requested number, whatever the options (also if the 32-bit comparison overflows). -/
theorem C16_stops (o : SOpts) (hN : 0 < o.maxNumSaves) (L : (Fin d → ℝ) → ℝ) (s : Sampler d)
    (hs : Reachable o L s) : s.saved.length ≤ o.maxNumSaves ∧
      (finished o s ↔ s.saved.length = o.maxNumSaves) := by
  obtain ⟨tie, draws, ins, _, _, h⟩ := hs
  have key : s.saved.length = s.countSaves ∧ s.countSaves ≤ o.maxNumSaves := by
    refine run_induct (P := fun s => s.saved.length = s.countSaves ∧ s.countSaves ≤ o.maxNumSaves)
      ins _ _ ⟨rfl, Nat.zero_le _⟩ ?_ h
    intro i _ a b ⟨h1, h2⟩ hf hr
    have hlt : a.countSaves < o.maxNumSaves := by
      rcases Nat.lt_or_ge a.countSaves o.maxNumSaves with h | h
      · exact h
      · exact absurd ((finished_iff hN h2).2 (by omega)) hf
    obtain ⟨_, ⟨_, h3, h4⟩ | ⟨_, h3, h4⟩⟩ := round_counts hr
    · exact ⟨by omega, by omega⟩
    · exact ⟨by rw [h4]; omega, by omega⟩
  rw [key.1]
  exact ⟨key.2, finished_iff hN key.2⟩

/-- C16 (part): without 32-bit overflow of (number of saves) × (save interval) and of the steps per
round, after `r` rounds exactly `min r ⌊steps / saveInterval⌋` samples are saved, where
`steps = r · threadSteps · tasks`: one per save interval when the interval is at least one round, one
per round otherwise.  Missing: larger products, where saves come too early (`C16_overflow`). -/
theorem C16_exact_partial (o : SOpts) (hN : 0 < o.maxNumSaves) (hSI : 0 < o.saveInterval)
    (hov : o.maxNumSaves * o.saveInterval < 2 ^ 32) (hW : o.threadSteps * o.totalTask < 2 ^ 32)
    (L : (Fin d → ℝ) → ℝ) (tie : ℝ) (draws : List (List ((Fin d → ℝ) × ℝ)))
    (ins : List (RoundIn d)) (s : Sampler d)
    (h : run o L ins (initSampler o L tie draws) = .ok s) :
    ∃ r ≤ ins.length, s.saved.length = min r (r * (o.threadSteps * o.totalTask) / o.saveInterval) ∧
      (r = ins.length ∨ s.saved.length = o.maxNumSaves) := by
  have gen : ∀ (ins : List (RoundIn d)) (r0 : ℕ) (a : Sampler d), SaveInv o r0 a →
      run o L ins a = .ok s → ∃ r, SaveInv o r s ∧ r ≤ r0 + ins.length ∧
        (r = r0 + ins.length ∨ finished o s) := by
    intro ins
    induction ins with
    | nil => intro r0 a ha h; cases h; exact ⟨r0, ha, by simp, by simp⟩
    | cons i is ih =>
      intro r0 a ha h
      simp only [run] at h
      split at h
      · cases h; rename_i hf; exact ⟨r0, ha, by omega, .inr hf⟩
      · rename_i hf
        obtain ⟨b, hb, h⟩ := Res.bind_eq_ok.1 h
        have hlt : a.countSaves < o.maxNumSaves := by
          rcases Nat.lt_or_ge a.countSaves o.maxNumSaves with h | h
          · exact h
          · exact absurd ((finished_iff hN ha.le).2 (by have := ha.le; omega)) hf
        obtain ⟨hm, hcase⟩ := round_counts hb
        have hno : (a.countSaves + 1) * o.saveInterval < 2 ^ 32 :=
          lt_of_le_of_lt (Nat.mul_le_mul_right _ hlt) hov
        rw [Nat.mod_eq_of_lt hW, ha.mcmc] at hm
        rw [Nat.mod_eq_of_lt hno] at hcase
        set W := o.threadSteps * o.totalTask with hWdef
        have hm' : b.countMcmc = (r0 + 1) * W := by rw [hm, Nat.succ_mul]
        have hcnt := ha.cnt
        have hinv : SaveInv o (r0 + 1) b := by
          have hsv := ha.saved
          rw [hm'] at hcase
          rcases hcase with ⟨hc, h1, h2⟩ | ⟨hc, h1, h2⟩
          · refine ⟨by omega, by omega, hm', ?_⟩
            rw [h1]
            have hge : a.countSaves + 1 ≤ (r0 + 1) * W / o.saveInterval :=
              (Nat.le_div_iff_mul_le hSI).2 hc
            have hle : a.countSaves ≤ r0 := by rw [hcnt]; exact min_le_left _ _
            rcases Nat.lt_or_ge a.countSaves r0 with hlt' | hge'
            · -- fewer saves than rounds: at most one more interval passed
              have hq : a.countSaves = r0 * W / o.saveInterval := by
                rw [hcnt] at hlt' ⊢
                rcases min_choice r0 (r0 * W / o.saveInterval) with hmin | hmin
                · rw [hmin] at hlt'; omega
                · exact hmin
              have hWS : W < o.saveInterval := by
                by_contra hge2
                have : r0 ≤ r0 * W / o.saveInterval :=
                  (Nat.le_div_iff_mul_le hSI).2 (Nat.mul_le_mul_left _ (by omega))
                omega
              have hub : (r0 + 1) * W / o.saveInterval ≤ a.countSaves + 1 := by
                rw [hq, ← Nat.add_div_right _ hSI, Nat.succ_mul]
                exact Nat.div_le_div_right (by omega)
              show a.countSaves + 1 = min (r0 + 1) ((r0 + 1) * W / o.saveInterval)
              omega
            · show a.countSaves + 1 = min (r0 + 1) ((r0 + 1) * W / o.saveInterval)
              omega
          · refine ⟨by rw [h2]; omega, by omega, hm', ?_⟩
            rw [h1]
            have hlt2 : (r0 + 1) * W / o.saveInterval < a.countSaves + 1 :=
              (Nat.div_lt_iff_lt_mul hSI).2 hc
            have hmono : r0 * W / o.saveInterval ≤ (r0 + 1) * W / o.saveInterval :=
              Nat.div_le_div_right (Nat.mul_le_mul_right _ (by omega))
            show a.countSaves = min (r0 + 1) ((r0 + 1) * W / o.saveInterval)
            change a.countSaves = min r0 (r0 * W / o.saveInterval) at hcnt
            omega
        obtain ⟨r, h1, h2, h3⟩ := ih (r0 + 1) b hinv h
        simp only [List.length_cons]
        exact ⟨r, h1, by omega, by rcases h3 with h3 | h3 <;> [left; right] <;> [omega; exact h3]⟩
  obtain ⟨r, h1, h2, h3⟩ := gen ins 0 (initSampler o L tie draws)
    ⟨rfl, Nat.zero_le _, by simp [initSampler], by simp [initSampler]⟩ h
  refine ⟨r, by omega, by rw [h1.saved, h1.cnt], ?_⟩
  rcases h3 with h3 | h3
  · left; omega
  · right; rw [h1.saved]; exact (finished_iff hN h1.le).1 h3

/-- C16: the run does stop: once enough rounds were made it has saved the requested number. -/
theorem C16_terminates (o : SOpts) (hN : 0 < o.maxNumSaves) (hSI : 0 < o.saveInterval)
    (hov : o.maxNumSaves * o.saveInterval < 2 ^ 32) (hW : o.threadSteps * o.totalTask < 2 ^ 32)
    (L : (Fin d → ℝ) → ℝ) (tie : ℝ) (draws : List (List ((Fin d → ℝ) × ℝ)))
    (ins : List (RoundIn d)) (s : Sampler d)
    (h : run o L ins (initSampler o L tie draws) = .ok s) (h1 : o.maxNumSaves ≤ ins.length)
    (h2 : o.maxNumSaves * o.saveInterval ≤ ins.length * (o.threadSteps * o.totalTask)) :
    s.saved.length = o.maxNumSaves ∧ finished o s := by
  have hle : s.saved.length = s.countSaves ∧ s.countSaves ≤ o.maxNumSaves := by
    refine run_induct (P := fun s => s.saved.length = s.countSaves ∧ s.countSaves ≤ o.maxNumSaves)
      ins _ _ ⟨rfl, Nat.zero_le _⟩ ?_ h
    intro i _ a b ⟨h1, h2⟩ hf hr
    have hlt : a.countSaves < o.maxNumSaves := by
      rcases Nat.lt_or_ge a.countSaves o.maxNumSaves with h | h
      · exact h
      · exact absurd ((finished_iff hN h2).2 (by omega)) hf
    obtain ⟨_, ⟨_, h3, h4⟩ | ⟨_, h3, h4⟩⟩ := round_counts hr
    · exact ⟨by omega, by omega⟩
    · exact ⟨by rw [h4]; omega, by omega⟩
  obtain ⟨r, _, hr, hcase⟩ := C16_exact_partial o hN hSI hov hW L tie draws ins s h
  have : s.saved.length = o.maxNumSaves := by
    rcases hcase with rfl | h'
    · have := (Nat.le_div_iff_mul_le hSI).2 h2
      omega
    · exact h'
  exact ⟨this, (finished_iff hN hle.2).2 (by omega)⟩

/-- The full claim fails: with a save interval of 2^31 steps the second save comes at once after the
first, since 2·2^31 is zero in 32-bit arithmetic. -/
theorem C16_overflow (o : SOpts) (hSI : o.saveInterval = 2 ^ 31) (i : RoundIn d) (s s' : Sampler d)
    (hc : s.countSaves = 1) (h : saveStep o i s = .ok s') : s'.countSaves = 2 := by
  rcases saveStep_shape h with ⟨_, ps, p, _, _, rfl⟩ | ⟨hlt, rfl⟩
  · simp [hc]
  · rw [hc, hSI] at hlt; norm_num at hlt

example : 0 < exOpts.maxNumSaves ∧ 0 < exOpts.saveInterval ∧
    exOpts.maxNumSaves * exOpts.saveInterval < 2 ^ 32 ∧
    exOpts.threadSteps * exOpts.totalTask < 2 ^ 32 := by simp

example : ∃ s, Reachable exOpts exL s ∧ s.saved.length = 1 := by
  obtain ⟨s, hs, _, h1⟩ := ex_reachable
  exact ⟨s, hs, by rw [h1]; rfl⟩

/-! ## C59 -/

/-- C59: in every state of every run all tasks agree on whether there are enough levels, although the
root task overwrites its own level limit when the last level is created and the others do not. -/
theorem C59_agreement (o : SOpts) (ho : GoodOpts o) (L : (Fin d → ℝ) → ℝ)
    (hL : ∀ x, -DBL_MAX ≤ L x) (s : Sampler d) (hs : Reachable o L s) :
    enoughLevels o s.maxLvRoot s.levels = enoughLevels o o.maxNumLevels s.levels := by
  rcases (reachable_shape ho hL hs).mx with h | ⟨h1, h2⟩
  · rw [h]
  · rw [h1, h2]

/-- C59: once there are enough levels, no task collects likelihoods and no level is created any
more. -/
theorem C59_enough_is_final (o : SOpts) (ho : GoodOpts o) (L : (Fin d → ℝ) → ℝ)
    (hL : ∀ x, -DBL_MAX ≤ L x) (s s' : Sampler d) (hs : Reachable o L s) (i : RoundIn d)
    (he : enoughLevels o s.maxLvRoot s.levels = .ok true) (h : round o L i s = .ok s') :
    s'.allAbove = s.allAbove ∧ s'.levels.map (·.logl) = s.levels.map (·.logl) ∧
      s'.maxLvRoot = s.maxLvRoot := by
  obtain ⟨hi, hsh, _⟩ := reachable_pool ho hL hs
  have he2 : enoughLevels o o.maxNumLevels s.levels = .ok true := by
    rw [← C59_agreement o ho L hL s hs]; exact he
  unfold round at h
  obtain ⟨ts, hts, h⟩ := Res.bind_eq_ok.1 h
  obtain ⟨s1, hs1, h⟩ := Res.bind_eq_ok.1 h
  have ha : (ts.map (·.above)).flatten = [] := by
    have key : ∀ (m : ℕ) (pss : List (List (Particle d))) (iss : List (List (StepIn d)))
        (ts : List (TaskSt d)), (∀ ps ∈ pss, ∀ p ∈ ps, ParticleOK s.levels p ∧ LikelihoodCurrent L p) →
        enoughLevels o m s.levels = .ok true →
        runTasks o L s.levels s.limits m pss iss = .ok ts → (ts.map (·.above)).flatten = [] := by
      intro m pss
      induction pss generalizing m with
      | nil => intro iss ts _ _ h; simp only [runTasks] at h; cases h; rfl
      | cons ps pss ih =>
        intro iss ts hp he h
        cases iss with
        | nil => simp [runTasks] at h
        | cons is iss =>
          simp only [runTasks] at h
          obtain ⟨t, ht, h⟩ := Res.bind_eq_ok.1 h
          obtain ⟨ts1, hts1, h⟩ := Res.bind_eq_ok.1 h
          cases h
          have hi0 : TInv L s.levels (⟨ps, s.levels, s.limits, []⟩ : TaskSt d) :=
            ⟨LvSteps.refl _, hp ps (by simp), by simp⟩
          simp only [List.map_cons, List.flatten_cons, List.append_eq_nil_iff]
          exact ⟨(mcmcRun_above hi.thr hi0 ht).2 he,
            ih _ _ _ (fun q hq => hp q (by simp [hq])) he2 hts1⟩
    exact key _ _ _ _ hi.part he hts
  have ht := runTasks_inv o L _ hi.thr _ _ _ _ _ hi.part hts
  have hcomb : LvSteps s.levels (mergeLevels s.levels (ts.map (·.levels)) s.levels) := by
    refine mergeLevels_steps _ _ _ ?_ rfl
    intro p hp
    obtain ⟨t, htm, rfl⟩ := List.mem_map.1 hp
    exact (ht t htm).steps
  obtain ⟨l1, l2, l3, l4, l5, l6⟩ := saveStep_levels h
  rw [l1, l4, l5]
  obtain ⟨root, b, _, _, hb, rfl⟩ := gatherTasks_shape hs1
  rcases doBookkeeping_spec _ _ _ _ _ _ _ _ hb with
    ⟨hm, hab, _, hmx, hl⟩ | ⟨v, ab, _, hen, _⟩
  · dsimp only
    rw [hab, ha, List.append_nil, hmx]
    exact ⟨rfl, by rw [hm, hcomb.map_logl], rfl⟩
  · rw [← enoughLevels_congr hcomb.map_logl, he] at hen; cases hen

example : ∃ s, Reachable exOpts exL s ∧ GoodOpts exOpts ∧
    enoughLevels exOpts exOpts.maxNumLevels s.levels = .ok true := by
  obtain ⟨s, hs, h1, _⟩ := ex_reachable
  refine ⟨s, hs, ⟨by simp, by simp, by simp, by simp, by norm_num⟩, ?_⟩
  have : s.levels.length = 2 := by simpa using congrArg List.length h1
  rw [exOpts_maxNumLevels, ex_enough, this]; rfl

end Mica
