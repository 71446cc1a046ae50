import Verif.Proof.SamplerExample
import Verif.Proof.Sampler2

/-!
# Properties of the nested sampler: C05 - C12

Vocabulary is in `Verif/Spec/Sampler.lean`; a run is any finite prefix of `dnest_run` from a fresh
start, on arbitrary random numbers, proposals and likelihood.  The only assumption on the likelihood
is `-DBL_MAX ≤ L x`, i.e. it never returns `-inf`/NaN.
-/

namespace Mica

variable {d : ℕ}

/-! ## C05 -/

/-- C05: thresholds never decrease with the level and start at the lowest double. -/
theorem C05_thresholds (o : SOpts) (L : (Fin d → ℝ) → ℝ) (hL : ∀ x, -DBL_MAX ≤ L x)
    (s : Sampler d) (h : Reachable o L s) :
    (∃ l0, s.levels[0]? = some l0 ∧ l0.logl.value = -DBL_MAX) ∧
    ∀ (i j : ℕ) (a b : Level), i ≤ j → s.levels[i]? = some a → s.levels[j]? = some b →
      a.logl.value ≤ b.logl.value :=
  (reachable_inv hL h).thr

/-- C05: a round keeps all existing thresholds and adds at most one at the end. -/
theorem C05_kept (o : SOpts) (L : (Fin d → ℝ) → ℝ) (hL : ∀ x, -DBL_MAX ≤ L x)
    (s s' : Sampler d) (h : Reachable o L s) (i : RoundIn d) (hr : round o L i s = .ok s') :
    ∃ new : List LogL, new.length ≤ 1 ∧
      s'.levels.map (·.logl) = s.levels.map (·.logl) ++ new := by
  have hi := reachable_inv hL h
  unfold round at hr
  obtain ⟨ts, hts, hr⟩ := Res.bind_eq_ok.1 hr
  obtain ⟨s1, hs1, hr⟩ := Res.bind_eq_ok.1 hr
  have ht := runTasks_inv o L _ hi.thr _ _ _ _ _ hi.part hts
  have hsv : s'.levels = s1.levels := by
    unfold saveStep at hr
    split at hr
    · obtain ⟨ps, hps, hr⟩ := Res.bind_eq_ok.1 hr
      obtain ⟨p, hp, hr⟩ := Res.bind_eq_ok.1 hr
      cases hr; rfl
    · cases hr; rfl
  rw [hsv]
  have hcomb : LvSteps s.levels (mergeLevels s.levels (ts.map (·.levels)) s.levels) := by
    refine mergeLevels_steps _ _ _ ?_ rfl
    intro p hp
    obtain ⟨t, htm, rfl⟩ := List.mem_map.1 hp
    exact (ht t htm).steps
  unfold gatherTasks at hs1
  dsimp only at hs1
  split at hs1
  · cases hs1
  · obtain ⟨root, hroot, hs1⟩ := Res.bind_eq_ok.1 hs1
    obtain ⟨b, hb, hs1⟩ := Res.bind_eq_ok.1 hs1
    cases hs1
    rcases doBookkeeping_spec _ _ _ _ _ _ _ _ hb with ⟨hm, _⟩ | ⟨v, above', _, _, _, hm, _⟩
    · exact ⟨[], by simp, by simp [hm, hcomb.map_logl]⟩
    · exact ⟨[v], by simp, by simp [hm, hcomb.map_logl]⟩

example : ∃ s, Reachable exOpts exL s ∧ 2 = s.levels.length :=
  let ⟨s, h, hl, _⟩ := ex_reachable
  ⟨s, h, by simpa using (congrArg List.length hl).symm⟩

/-! ## C06, C07 -/

/-- C06: every particle's level exists and its likelihood reaches the level's threshold; the same
holds for every particle that was saved. -/
theorem C06_constraint (o : SOpts) (L : (Fin d → ℝ) → ℝ) (hL : ∀ x, -DBL_MAX ≤ L x)
    (s : Sampler d) (h : Reachable o L s) :
    (∀ ps ∈ s.tasks, ∀ p ∈ ps, ∃ lv, s.levels[p.level]? = some lv ∧ lv.logl.value ≤ p.logl.value) ∧
    (∀ p ∈ s.saved, ∃ lv, s.levels[p.level]? = some lv ∧ lv.logl.value ≤ p.logl.value) :=
  let hi := reachable_inv hL h
  ⟨fun ps hps p hp => (hi.part ps hps p hp).1, fun p hp => (hi.saved p hp).1⟩

/-- C07: the recorded likelihood of every particle, also of the saved ones, is the likelihood of its
recorded parameters. -/
theorem C07_current (o : SOpts) (L : (Fin d → ℝ) → ℝ) (hL : ∀ x, -DBL_MAX ≤ L x)
    (s : Sampler d) (h : Reachable o L s) :
    (∀ ps ∈ s.tasks, ∀ p ∈ ps, p.logl.value = L p.params) ∧
    (∀ p ∈ s.saved, p.logl.value = L p.params) :=
  let hi := reachable_inv hL h
  ⟨fun ps hps p hp => (hi.part ps hps p hp).2, fun p hp => (hi.saved p hp).2⟩

example : ∃ s, Reachable exOpts exL s ∧ ∃ p ∈ s.saved, p.params 0 = 3 :=
  let ⟨s, h, _, hs⟩ := ex_reachable
  ⟨s, h, _, by rw [hs]; exact List.mem_singleton.2 rfl, rfl⟩

/-! ## C08 -/

/-- C08: exceedances never exceed visits and acceptances never exceed tries. -/
theorem C08_counts (o : SOpts) (L : (Fin d → ℝ) → ℝ) (hL : ∀ x, -DBL_MAX ≤ L x)
    (s : Sampler d) (h : Reachable o L s) :
    ∀ l ∈ s.levels, l.exceeds ≤ l.visits ∧ l.accepts ≤ l.tries :=
  (reachable_inv hL h).counts

/-! ## C09 -/

/-- C09: after a gather step every counter of every level equals its value before the parallel phase
plus the sum over all tasks of that task's increments.  The counters are renormalised afterwards only
when the last level has just been created; the hypothesis `hnr` excludes this. -/
theorem C09_merge (o : SOpts) (L : (Fin d → ℝ) → ℝ) (hL : ∀ x, -DBL_MAX ≤ L x)
    (s s' : Sampler d) (h : Reachable o L s) (is : List (List (StepIn d))) (k : KillIn)
    (ts : List (TaskSt d))
    (hts : runTasks o L s.levels s.limits s.maxLvRoot s.tasks is = .ok ts)
    (hg : gatherTasks o s ts k = .ok s')
    (hnr : s'.levels.length = s.levels.length ∨ enoughLevels o s.maxLvRoot s'.levels = .ok false)
    (j : ℕ) (hj : j < s.levels.length)
    (f : Level → ℕ) (hf : f = Level.visits ∨ f = Level.exceeds ∨ f = Level.accepts ∨ f = Level.tries) :
    counterAt f s'.levels j =
      counterAt f s.levels j +
        (ts.map (fun t => counterAt f t.levels j - counterAt f s.levels j)).sum := by
  have hi := reachable_inv hL h
  have ht := runTasks_inv o L _ hi.thr _ _ _ _ _ hi.part hts
  obtain ⟨root, b, _, _, hb, rfl⟩ := gatherTasks_shape hg
  dsimp only at hnr ⊢
  have hlv : ∀ pl ∈ ts.map (·.levels), pl.length = s.levels.length := by
    intro p hp
    obtain ⟨t, htm, rfl⟩ := List.mem_map.1 hp
    exact (ht t htm).steps.length
  have hcl : (mergeLevels s.levels (ts.map (·.levels)) s.levels).length = s.levels.length := by
    refine (mergeLevels_steps _ _ _ ?_ rfl).length
    intro p hp
    obtain ⟨t, htm, rfl⟩ := List.mem_map.1 hp
    exact (ht t htm).steps
  have hf2 : ∀ o c p, f (addCounts o c p) = f c + (f p - f o) := by
    rcases hf with rfl | rfl | rfl | rfl <;> intro o c p <;> rfl
  have hf3 : ∀ (l : Level) x, f { l with logX := x } = f l := by
    rcases hf with rfl | rfl | rfl | rfl <;> intro l x <;> rfl
  have hrecalc : ∀ (ls : List Level) (j : ℕ),
      counterAt f (recalcLogX o ls) j = counterAt f ls j := by
    intro ls
    have h1 : ∀ (ls : List Level) (p : Level) (j : ℕ),
        counterAt f (recalcFrom o p ls) j = counterAt f ls j := by
      intro ls
      induction ls with
      | nil => intro p j; rfl
      | cons l ls ih =>
        intro p j
        cases j with
        | zero => simp [counterAt, recalcFrom, hf3]
        | succ j => simpa [counterAt, recalcFrom] using ih _ j
    intro j
    cases ls with
    | nil => rfl
    | cons l ls =>
      cases j with
      | zero => simp [counterAt, recalcLogX, hf3]
      | succ j => simpa [counterAt, recalcLogX] using h1 ls _ j
  have hmain : counterAt f b.levels j =
      counterAt f (mergeLevels s.levels (ts.map (·.levels)) s.levels) j := by
    rcases doBookkeeping_spec _ _ _ _ _ _ _ _ hb with
      ⟨_, _, _, _, hl⟩ | ⟨v, ab, _, _, _, hm, _, hc⟩
    · rw [hl, hrecalc]
    · rcases hc with ⟨_, _, he, hl⟩ | ⟨_, _, _, hl⟩
      · exfalso
        rcases hnr with hnr | hnr
        · have := congrArg List.length hm
          simp [hcl, hnr] at this
        · rw [enoughLevels_congr hm, he] at hnr
          cases hnr
      · rw [hl, hrecalc]
        simp only [counterAt]
        rw [List.getElem?_append_left (by rw [hcl]; exact hj)]
  rw [hmain]
  obtain ⟨m, hm, hfm⟩ := mergeLevels_closed f hf2 s.levels (ts.map (·.levels)) s.levels j
    s.levels[j] s.levels[j] (by simp [hj]) (by simp [hj]) hlv rfl
  have hle : ∀ t ∈ ts, ∃ p, t.levels[j]? = some p ∧ f s.levels[j] ≤ f p := by
    intro t htm
    obtain ⟨y, hy, hs⟩ := (ht t htm).steps.get (i := j) (x := s.levels[j]) (by simp [hj])
    refine ⟨y, hy, ?_⟩
    obtain ⟨_, _, dv, de, da, dt, h1, h2, h3, h4, _, _⟩ := hs
    rcases hf with rfl | rfl | rfl | rfl <;> omega
  have hsum : ∀ ts : List (TaskSt d), (∀ t ∈ ts, ∃ p, t.levels[j]? = some p ∧ f s.levels[j] ≤ f p) →
      (((((ts.map (·.levels)).filterMap (·[j]?)).map (fun p => f p - f s.levels[j])).sum : ℕ) : ℤ) =
      (ts.map (fun t => counterAt f t.levels j - (f s.levels[j] : ℤ))).sum := by
    intro ts hts
    induction ts with
    | nil => rfl
    | cons t ts ih =>
      obtain ⟨p, hp, hle⟩ := hts t (by simp)
      have := ih (fun t ht => hts t (by simp [ht]))
      simp only [List.map_cons, List.sum_cons, List.filterMap_cons, hp, Nat.cast_add]
      rw [this]
      simp [counterAt, hp, Nat.cast_sub hle]
  have h0 : counterAt f s.levels j = f s.levels[j] := by simp [counterAt, hj]
  rw [h0, ← hsum ts hle]
  simp [counterAt, hm, hfm]

/-! ## C10 -/

/-- C10: `log X` of level 0 is 0, and going up one level adds
`log((exceeds + reg/compression)/(visits + reg))`. -/
theorem C10_recurrence (o : SOpts) (L : (Fin d → ℝ) → ℝ) (s : Sampler d) (h : Reachable o L s) :
    (∀ l, s.levels[0]? = some l → l.logX = 0) ∧
    ∀ (i : ℕ) (a b : Level), s.levels[i]? = some a → s.levels[i + 1]? = some b →
      b.logX = a.logX + Real.log (((a.exceeds : ℝ) + 1 / o.compression * o.regularisation) /
        ((a.visits : ℝ) + o.regularisation)) :=
  reachable_rec h

/-- C10: `log X` never increases with the level (`compression ≥ 1`, positive regularisation), and
strictly decreases when `compression > 1`. -/
theorem C10_decreasing (o : SOpts) (L : (Fin d → ℝ) → ℝ) (hL : ∀ x, -DBL_MAX ≤ L x)
    (hc : 1 ≤ o.compression) (hr : 0 < o.regularisation)
    (s : Sampler d) (h : Reachable o L s) (i j : ℕ) (a b : Level) (hij : i < j)
    (ha : s.levels[i]? = some a) (hb : s.levels[j]? = some b) :
    b.logX ≤ a.logX ∧ (1 < o.compression → b.logX < a.logX) := by
  have hrec := (reachable_rec h).2
  have hcnt := (reachable_inv hL h).counts
  induction j, hij using Nat.le_induction generalizing b with
  | base =>
    rw [hrec i a b ha hb]
    have hca := (hcnt a (List.mem_of_getElem? ha)).1
    have h0 := ratio_pos a.exceeds a.visits _ _ hc hr
    have h1 := Real.log_nonpos h0.le (ratio_le a.exceeds a.visits _ _ hc hr hca)
    refine ⟨by linarith, fun hc1 => ?_⟩
    have := Real.log_neg h0 (ratio_lt a.exceeds a.visits _ _ hc1 hr hca)
    linarith
  | succ j hj ih =>
    have hlt := (List.getElem?_eq_some_iff.1 hb).1
    have hm : s.levels[j]? = some s.levels[j] := by simp [Nat.lt_of_succ_lt hlt]
    obtain ⟨i1, i2⟩ := ih _ hm
    have hca := (hcnt _ (List.mem_of_getElem? hm)).1
    have h0 := ratio_pos s.levels[j].exceeds s.levels[j].visits _ _ hc hr
    have h1 := Real.log_nonpos h0.le (ratio_le _ _ _ _ hc hr hca)
    rw [hrec j _ b hm hb]
    exact ⟨by linarith, fun hc1 => by have := i2 hc1; linarith⟩

example : ∃ s, Reachable exOpts exL s ∧ 1 < exOpts.compression ∧ 0 < exOpts.regularisation ∧
    ∃ a b, s.levels[0]? = some a ∧ s.levels[1]? = some b := by
  obtain ⟨s, h, hl, _⟩ := ex_reachable
  have hlen : s.levels.length = 2 := by simpa using congrArg List.length hl
  exact ⟨s, h, by norm_num, by norm_num, s.levels[0], s.levels[1], by simp [hlen], by simp [hlen]⟩

/-! ## C11 -/

/-- C11: a round creates a level exactly when levels are not yet enough and at least
`new_level_interval` values are pooled.  The new threshold is then one of the pooled values, not below
the previous top threshold; exactly `⌊n/compression⌋` pooled values are carried over; each carried
value is at least the threshold and each dropped one at most. -/
theorem C11_quantile (o : SOpts) (L : (Fin d → ℝ) → ℝ) (hL : ∀ x, -DBL_MAX ≤ L x)
    (s s' : Sampler d) (h : Reachable o L s) (is : List (List (StepIn d))) (k : KillIn)
    (ts : List (TaskSt d))
    (hts : runTasks o L s.levels s.limits s.maxLvRoot s.tasks is = .ok ts)
    (hg : gatherTasks o s ts k = .ok s') :
    let pool := s.allAbove ++ (ts.map (·.above)).flatten
    (s'.levels.length = s.levels.length ∧ s'.allAbove = pool ∧
      (enoughLevels o s.maxLvRoot s.levels = .ok true ∨ pool.length < o.newLevelInterval)) ∨
    (enoughLevels o s.maxLvRoot s.levels = .ok false ∧ o.newLevelInterval ≤ pool.length ∧
      ∃ (new : Level) (dropped : List LogL),
        s'.levels.map (·.logl) = s.levels.map (·.logl) ++ [new.logl] ∧
        new.logl ∈ pool ∧ (∀ lv ∈ s.levels, lv.logl.value ≤ new.logl.value) ∧
        (s'.allAbove ++ dropped).Perm pool ∧
        s'.allAbove.length = ⌊(pool.length : ℝ) / o.compression⌋₊ ∧
        (∀ a ∈ s'.allAbove, a.ge new.logl) ∧ (∀ a ∈ dropped, new.logl.ge a)) := by
  have hi := reachable_inv hL h
  have ht := runTasks_inv o L _ hi.thr _ _ _ _ _ hi.part hts
  have hcomb : LvSteps s.levels (mergeLevels s.levels (ts.map (·.levels)) s.levels) := by
    refine mergeLevels_steps _ _ _ ?_ rfl
    intro p hp
    obtain ⟨t, htm, rfl⟩ := List.mem_map.1 hp
    exact (ht t htm).steps
  obtain ⟨root, b, _, _, hb, rfl⟩ := gatherTasks_shape hg
  intro pool
  dsimp only
  have hen : enoughLevels o s.maxLvRoot s.levels =
      enoughLevels o s.maxLvRoot (mergeLevels s.levels (ts.map (·.levels)) s.levels) :=
    enoughLevels_congr hcomb.map_logl _ _
  rw [hen]
  have hpool : ∀ a ∈ pool, ∀ lv ∈ s.levels, lv.logl.value ≤ a.value := by
    intro a ha lv hlv
    rcases List.mem_append.1 ha with ha | ha
    · exact hi.above a ha lv hlv
    · obtain ⟨l, hl, hal⟩ := List.mem_flatten.1 ha
      obtain ⟨t, htm, rfl⟩ := List.mem_map.1 hl
      exact (ht t htm).above a hal lv hlv
  have hb0 := hb
  rcases doBookkeeping_spec _ _ _ _ _ _ _ _ hb with
    ⟨hm, ha, _, _, _⟩ | ⟨v, ab, hcr, he, hn, hm, ha, _⟩
  · left
    refine ⟨?_, ha, ?_⟩
    · have := congrArg List.length hm; simpa [hcomb.length] using this
    · unfold doBookkeeping at hb0
      obtain ⟨e, he, hb0⟩ := Res.bind_eq_ok.1 hb0
      rw [he]
      by_cases hn : pool.length < o.newLevelInterval
      · exact .inr hn
      · left
        cases e with
        | true => rfl
        | false =>
          exfalso
          rw [if_pos ⟨by simp, by simpa [pool] using hn⟩] at hb0
          obtain ⟨⟨c1, c2⟩, hc1, hb0⟩ := Res.bind_eq_ok.1 hb0
          obtain ⟨v, _, rfl, _⟩ := createLevel_spec _ _ _ _ _ hc1
          have : b.levels.map (·.logl) = (mergeLevels s.levels (ts.map (·.levels)) s.levels ++
              [(⟨v, 0, 0, 0, 0, 0⟩ : Level)]).map (·.logl) := by
            obtain ⟨e', he', hb0⟩ := Res.bind_eq_ok.1 hb0
            split at hb0
            · cases hb0
              simp only [recalcLogX_map, List.map_map]
              congr 1; funext l; exact renormLevel_logl _ l
            · obtain ⟨_, _, hb0⟩ := Res.bind_eq_ok.1 hb0
              cases hb0; exact recalcLogX_map _ _
          rw [hm] at this
          have := congrArg List.length this
          simp at this
  · right
    obtain ⟨v', hv', hcc, habv, hidx, hge, _⟩ := createLevel_spec _ _ _ _ _ hcr
    have hvv : v' = v := by simpa using hcc.symm
    subst hvv
    have hidx : (msortC dnestCmp pool)[⌊(1 / o.compression) * (pool.length : ℝ)⌋₊]? = some v' := hidx
    have habv : ab = (msortC dnestCmp pool).take ⌊(1 / o.compression) * (pool.length : ℝ)⌋₊ := habv
    have hdiv : (pool.length : ℝ) / o.compression = (1 / o.compression) * (pool.length : ℝ) := by
      ring
    refine ⟨he, hn, ⟨v', 0, 0, 0, 0, 0⟩,
      (msortC dnestCmp pool).drop ⌊(1 / o.compression) * (pool.length : ℝ)⌋₊, ?_, hv',
      hpool v' hv', ?_, ?_, ?_, ?_⟩
    · simp [hm, hcomb.map_logl]
    · rw [ha, habv, List.take_append_drop]
      exact msortC_perm _ _
    · rw [ha, habv, List.length_take]
      have h1 := (List.getElem?_eq_some_iff.1 hidx).1
      rw [min_eq_left h1.le, hdiv]
    · rw [ha]; exact hge
    · intro a hamem
      obtain ⟨q, hq, hqa⟩ := List.mem_iff_getElem.1 hamem
      obtain ⟨h1, h2⟩ := List.getElem?_eq_some_iff.1 hidx
      rw [List.getElem_drop] at hqa
      have hql : ⌊(1 / o.compression) * (pool.length : ℝ)⌋₊ + q < (msortC dnestCmp pool).length := by
        rw [List.length_drop] at hq; omega
      rcases Nat.eq_zero_or_pos q with hq0 | hq0
      · subst hq0
        have : v' = a := by rw [← hqa, ← h2]; rfl
        rw [this]; right; exact ⟨rfl, le_rfl⟩
      · have := (List.pairwise_iff_getElem.1 (dnestSort_sorted pool)) _ _ h1 hql (by omega)
        rw [hqa] at this
        rw [h2] at this; exact this

/-! ## C12 -/

/-- C12: the sort used for the quantile returns a permutation in descending order
(value, then tiebreaker). -/
theorem C12_sort (l : List LogL) :
    (msortC dnestCmp l).Perm l ∧ (msortC dnestCmp l).Pairwise LogL.ge :=
  ⟨msortC_perm _ _, dnestSort_sorted l⟩

/-- C12: the comparison function is not a valid `qsort` comparison in the sense of ISO C (swapping the
arguments must swap the sign), so `C12_sort` rests on glibc's merge sort. -/
theorem C12_not_iso : ∃ a b : LogL, ¬ (0 < dnestCmp a b ↔ dnestCmp b a < 0) :=
  ⟨⟨0, 0⟩, ⟨1, 0⟩, by norm_num [dnestCmp]⟩

end Mica
