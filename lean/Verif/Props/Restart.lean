import Verif.Proof.Restart
import Verif.Proof.SamplerExample

/-!
# C17 (restart files), C18 (invariants after a restart)
-/

namespace Mica

variable {d : ℕ}

theorem restartSize_self {o : SOpts} {n : ℕ} (h : n ≤ o.levelCap) : restartSize o n = .ok n := by
  unfold restartSize
  unfold SOpts.levelCap at h
  split at h
  · rename_i h0; rw [if_pos h0, if_neg (by omega)]
  · rename_i h0; rw [if_neg h0, if_neg (by omega)]

/-- C17 (part): a restart file written in any state of any run with fewer than 2^32 steps restores,
with the same options, the level table, the particles with their level assignments and likelihoods,
the limits, the save count and the step count.
Missing: longer runs, for which it is false (`C17_long_run`). -/
theorem C17_roundtrip_partial (o : SOpts) (ho : GoodOpts o) (hN : 0 < o.maxNumSaves)
    (h32 : o.maxNumSaves < 2 ^ 32 ∧ o.maxNumLevels < 2 ^ 32) (L : (Fin d → ℝ) → ℝ)
    (hL : ∀ x, -DBL_MAX ≤ L x) (s : Sampler d) (hs : Reachable o L s)
    (hmc : s.countMcmc < 2 ^ 32) (saved : List (Particle d)) :
    ∃ s', readRestart o L saved (writeRestart o s) = .ok s' ∧ s'.levels = s.levels ∧
      s'.tasks = s.tasks ∧ (o.flagLimits = true → s'.limits = s.limits) ∧
      s'.countSaves = s.countSaves ∧ s'.countMcmc = s.countMcmc ∧ s'.saved = saved := by
  obtain ⟨hi, hsh, _⟩ := reachable_pool ho hL hs
  have hsv := reachable_saves hN hs
  have hcap32 : o.levelCap < 2 ^ 32 := by
    unfold SOpts.levelCap
    split
    · exact h32.2
    · norm_num
  have hsv32 : s.countSaves % 2 ^ 32 = s.countSaves := Nat.mod_eq_of_lt (by omega)
  have hlev : ∀ ps ∈ s.tasks, ∀ p ∈ ps, p.level < s.levels.length := fun ps hps => (hsh.np ps hps).2
  have hcap := hsh.cap
  have key := readRestart_write o o L saved s s.levels.length rfl hsh.nt
    (fun ps hps => (hsh.np ps hps).1) (fun ps hps p hp => by have := hlev ps hps p hp; omega)
    (by omega) (by rw [hsh.lim]; exact hcap) (restartSize_self hcap) (by omega)
  rw [List.take_length] at key
  have hmap : (s.tasks.map fun ps => ps.map fun p =>
      (if p.level > s.levels.length - 1 then s.levels.length - 1 else p.level, p.logl)) =
      s.tasks.map fun ps => ps.map fun p => (p.level, p.logl) := by
    refine List.map_congr_left fun ps hps => List.map_congr_left fun p hp => ?_
    have := hlev ps hps p hp
    rw [if_neg (by omega)]
  rw [hmap, restartTasks_same L s.levels s.tasks hi.part] at key
  refine ⟨_, key, rfl, rfl, ?_, hsv32, Nat.mod_eq_of_lt hmc, rfl⟩
  intro hf
  dsimp only
  rw [if_pos hf]
  have hlim := reachable_limInv hf hL hs
  have hdrop : s.limits.drop s.levels.length =
      List.replicate (o.levelCap - s.levels.length) (lim0 d) := by
    rw [List.eq_replicate_iff]
    refine ⟨by rw [List.length_drop, hsh.lim], ?_⟩
    intro x hx
    obtain ⟨k, hk, rfl⟩ := List.mem_iff_getElem.1 hx
    refine hlim.hi (s.levels.length + k) _ (by omega) ?_
    rw [List.getElem_drop, List.getElem?_eq_getElem]
  rw [List.take_take, min_self, show (fun _ => (DBL_MAX, -DBL_MAX)) = lim0 d from rfl, ← hdrop,
    List.take_append_drop]

/-- The full claim fails: the step count is a 64-bit number of which only four bytes are stored, so no
state with 2^32 steps or more is restored. -/
theorem C17_long_run (o : SOpts) (L : (Fin d → ℝ) → ℝ) (s s' : Sampler d) (saved : List (Particle d))
    (hmc : 2 ^ 32 ≤ s.countMcmc) (h : readRestart o L saved (writeRestart o s) = .ok s') :
    s'.countMcmc < s.countMcmc := by
  have : s'.countMcmc = s.countMcmc % 2 ^ 32 := by
    unfold readRestart writeRestart at h
    simp only [writeInt, List.cons_append, List.nil_append, rdInt, Res.ok_bind] at h
    obtain ⟨size, _, h⟩ := Res.bind_eq_ok.1 h
    obtain ⟨a, _, h⟩ := Res.bind_eq_ok.1 h
    obtain ⟨b, _, h⟩ := Res.bind_eq_ok.1 h
    obtain ⟨c, _, h⟩ := Res.bind_eq_ok.1 h
    obtain ⟨e, _, h⟩ := Res.bind_eq_ok.1 h
    split at h
    · cases h
    · obtain ⟨t, _, h⟩ := Res.bind_eq_ok.1 h
      cases h; rfl
  have h2 := Nat.mod_lt s.countMcmc (show 0 < 2 ^ 32 by norm_num)
  omega

example : ∃ s, Reachable exOpts exL s ∧ s.countMcmc < 2 ^ 32 ∧ s.levels.length = 2 := by
  obtain ⟨s, hs, h1, _⟩ := ex_reachable
  refine ⟨s, hs, ?_, by simpa using congrArg List.length h1⟩
  obtain ⟨tie, draws, ins, hd, hv, h⟩ := hs
  -- the example state was reached with few saves, hence few steps
  have hb : s.countMcmc ≤ s.countSaves := by
    refine run_induct (P := fun s => s.countMcmc ≤ s.countSaves ∧ s.countSaves ≤ 3) ins _ _
      ⟨le_rfl, by simp [initSampler]⟩ ?_ h |>.1
    intro i _ a b ⟨h1, h2⟩ hf hr
    have h3 : a.countSaves ≠ 3 := by
      intro h3; exact hf ⟨by simp, by omega, by simp [h3]⟩
    unfold round at hr
    obtain ⟨ts, _, hr⟩ := Res.bind_eq_ok.1 hr
    obtain ⟨s1, hs1, hr⟩ := Res.bind_eq_ok.1 hr
    obtain ⟨root, b, _, _, _, rfl⟩ := gatherTasks_shape hs1
    have inv : a.countMcmc = a.countMcmc := rfl
    rcases saveStep_shape hr with ⟨_, ps, p, _, _, rfl⟩ | ⟨hlt, rfl⟩
    · simp; omega
    · simp at hlt ⊢; omega
  have := reachable_saves (o := exOpts) (by simp) ⟨tie, draws, ins, hd, hv, h⟩
  simp at this
  omega

/-- C18: whatever the restart file contains, if the restart succeeds with a level table that starts at
the lowest threshold, every particle's level exists, its likelihood reaches the threshold of that
level, and the recorded likelihood is the likelihood of its parameters; there are as many tasks and
particles as configured, and no more levels than the configured table holds. -/
theorem C18_invariants (o : SOpts) (L : (Fin d → ℝ) → ℝ) (hL : ∀ x, -DBL_MAX ≤ L x)
    (saved : List (Particle d)) (cs : List (Cell d)) (s : Sampler d)
    (h : readRestart o L saved cs = .ok s)
    (h0 : ∃ l, s.levels[0]? = some l ∧ l.logl.value = -DBL_MAX) :
    (∀ ps ∈ s.tasks, ∀ p ∈ ps, ParticleOK s.levels p ∧ LikelihoodCurrent L p) ∧
    s.tasks.length = o.totalTask ∧ (∀ ps ∈ s.tasks, ps.length = o.numParticles) ∧
    s.levels.length ≤ o.levelCap ∧ s.countSaves ≤ o.maxNumSaves := by
  unfold readRestart at h
  obtain ⟨⟨nS, c1⟩, _, h⟩ := Res.bind_eq_ok.1 h
  obtain ⟨⟨nM, c2⟩, _, h⟩ := Res.bind_eq_ok.1 h
  obtain ⟨⟨nL, c3⟩, _, h⟩ := Res.bind_eq_ok.1 h
  obtain ⟨size, hsize, h⟩ := Res.bind_eq_ok.1 h
  obtain ⟨⟨lvs, c4⟩, hlvs, h⟩ := Res.bind_eq_ok.1 h
  obtain ⟨⟨as, c5⟩, has, h⟩ := Res.bind_eq_ok.1 h
  obtain ⟨⟨lims, c6⟩, _, h⟩ := Res.bind_eq_ok.1 h
  obtain ⟨⟨xs, c7⟩, hxs, h⟩ := Res.bind_eq_ok.1 h
  dsimp only at h has hxs hlvs hsize
  split at h
  · cases h
  · rename_i hns
    obtain ⟨tasks, ht, h⟩ := Res.bind_eq_ok.1 h
    cases h
    dsimp only at h0 ⊢
    obtain ⟨l0, hl0, hv0⟩ := h0
    have hll := rdMany_length _ _ _ _ _ hlvs
    have hsz : size ≤ nL ∧ size ≤ o.levelCap := by
      unfold restartSize at hsize
      unfold SOpts.levelCap
      by_cases h0 : o.maxNumLevels = 0
      · simp only [h0, ne_eq, not_true_eq_false, if_false] at hsize ⊢
        split at hsize
        · cases hsize
        · cases hsize; omega
      · simp only [ne_eq, h0, not_false_eq_true, if_true] at hsize ⊢
        split at hsize <;> cases hsize <;> omega
    have htl : (lvs.take size).length = size := by rw [List.length_take]; omega
    have hpos : 0 < size := by
      have := (List.getElem?_eq_some_iff.1 hl0).1; omega
    have has' : ∀ a ∈ as, a.length = o.numParticles ∧ ∀ x ∈ a, x.1 < (lvs.take size).length := by
      refine rdMany_forall _ _ ?_ _ _ _ _ has
      intro cs b cs' hb
      refine ⟨rdMany_length _ _ _ _ _ hb, ?_⟩
      refine rdMany_forall _ _ ?_ _ _ _ _ hb
      intro cs b cs' hb
      rw [htl]
      match cs, hb with
      | .int n :: .logl l :: cs, hb =>
        simp only [rdAssign] at hb
        cases hb
        dsimp only
        split <;> omega
    have hxs' : ∀ a ∈ xs, a.length = o.numParticles :=
      rdMany_forall _ _ (fun cs b cs' hb => rdMany_length _ _ _ _ _ hb) _ _ _ _ hxs
    obtain ⟨pss, hpss, hl, hp⟩ := restartTasks_spec L (lvs.take size)
      (fun l hl x => by
        rw [hl0] at hl; cases hl; rw [hv0]; exact hL x) o.numParticles as xs has' hxs'
    rw [ht] at hpss
    cases hpss
    refine ⟨fun ps hps => (hp ps hps).2, ?_, fun ps hps => (hp ps hps).1, by omega, by omega⟩
    rw [hl, rdMany_length _ _ _ _ _ has, rdMany_length _ _ _ _ _ hxs, min_self]

/-- C18: a file written in any state of any run can be read by a later run with another level limit
(and the same numbers of tasks and particles, and a save count still to be reached); the restarted
sampler satisfies all sampler invariants, keeps the lowest levels unchanged, and so does every run
continued from it. -/
theorem C18_changed_levels (o o' : SOpts) (ho : GoodOpts o) (hN : 0 < o.maxNumSaves)
    (h32 : o.maxNumSaves < 2 ^ 32 ∧ o.maxNumLevels < 2 ^ 32)
    (hT : o'.totalTask = o.totalTask) (hP : o'.numParticles = o.numParticles)
    (hf : o'.flagLimits = o.flagLimits) (L : (Fin d → ℝ) → ℝ)
    (hL : ∀ x, -DBL_MAX ≤ L x) (s : Sampler d) (hs : Reachable o L s)
    (hS : s.countSaves ≤ o'.maxNumSaves) :
    (∃ s', readRestart o' L [] (writeRestart o s) = .ok s' ∧
      s'.levels = s.levels.take o'.levelCap ∧ SInv L s' ∧
      ∀ ins s'', run o' L ins s' = .ok s'' → SInv L s'') ∨
    (o'.maxNumLevels = 0 ∧ 1000 < s.levels.length ∧
      readRestart o' L [] (writeRestart o s) = .exit) := by
  obtain ⟨hi, hsh, _⟩ := reachable_pool ho hL hs
  have hsv := reachable_saves hN hs
  have hcap32 : o.levelCap < 2 ^ 32 := by
    unfold SOpts.levelCap
    split
    · exact h32.2
    · norm_num
  have hcap := hsh.cap
  have hsv32 : s.countSaves % 2 ^ 32 = s.countSaves := Nat.mod_eq_of_lt (by omega)
  by_cases hex : o'.maxNumLevels = 0 ∧ 1000 < s.levels.length
  · right
    refine ⟨hex.1, hex.2, ?_⟩
    unfold readRestart writeRestart
    simp only [writeInt, List.cons_append, List.nil_append, rdInt, Res.ok_bind]
    rw [Nat.mod_eq_of_lt (show s.levels.length < 2 ^ 32 by omega)]
    simp [restartSize, hex.1, hex.2]
  · left
    have hsize : restartSize o' s.levels.length = .ok (min s.levels.length o'.levelCap) := by
      unfold restartSize SOpts.levelCap
      by_cases h0 : o'.maxNumLevels = 0
      · have : ¬ 1000 < s.levels.length := fun h => hex ⟨h0, h⟩
        simp only [h0, ne_eq, not_true_eq_false, if_false, gt_iff_lt, this]
        rw [min_eq_left (by omega)]
      · simp only [ne_eq, h0, not_false_eq_true, if_true]
        split
        · rw [min_eq_right (by omega)]
        · rw [min_eq_left (by omega)]
    have hlev : ∀ ps ∈ s.tasks, ∀ p ∈ ps, p.level < s.levels.length :=
      fun ps hps => (hsh.np ps hps).2
    have key := readRestart_write o o' L [] s _ hf (by rw [hsh.nt, hT])
      (fun ps hps => by rw [(hsh.np ps hps).1, hP])
      (fun ps hps p hp => by have := hlev ps hps p hp; omega)
      (by omega) (by rw [hsh.lim]; exact hcap) hsize (by omega)
    set size := min s.levels.length o'.levelCap with hsz
    have htl : (s.levels.take size).length = size := by rw [List.length_take]; omega
    obtain ⟨⟨l0, hl0, hv0⟩, hmono⟩ := hi.thr
    have hcap' : 0 < o'.levelCap := by
      unfold SOpts.levelCap; split <;> omega
    have hpos : 0 < size := by have := hsh.lv; omega
    have hl0' : (s.levels.take size)[0]? = some l0 := by rw [List.getElem?_take_of_lt hpos]; exact hl0
    obtain ⟨pss, hpss, hl, hp⟩ := restartTasks_spec L (s.levels.take size)
      (fun l hl x => by rw [hl0'] at hl; cases hl; rw [hv0]; exact hL x) o.numParticles
      (s.tasks.map fun ps => ps.map fun p =>
          (if p.level > size - 1 then size - 1 else p.level, p.logl))
      (s.tasks.map fun ps => ps.map (·.params))
      (by
        intro as has
        obtain ⟨ps, hps, rfl⟩ := List.mem_map.1 has
        refine ⟨by simp [(hsh.np ps hps).1], ?_⟩
        intro a ha
        obtain ⟨p, hp, rfl⟩ := List.mem_map.1 ha
        rw [htl]
        dsimp only
        split <;> omega)
      (by
        intro as has
        obtain ⟨ps, hps, rfl⟩ := List.mem_map.1 has
        simp [(hsh.np ps hps).1])
    rw [hpss] at key
    have hinv : SInv L
        ({  tasks := pss
            levels := s.levels.take size
            limits := if o'.flagLimits then
                (s.limits.take s.levels.length).take size ++
                  List.replicate (o'.levelCap - size) (fun _ => (DBL_MAX, -DBL_MAX))
              else List.replicate o'.levelCap (fun _ => (DBL_MAX, -DBL_MAX))
            allAbove := []
            maxLvRoot := o'.maxNumLevels
            countMcmc := s.countMcmc % 2 ^ 32
            countSaves := s.countSaves % 2 ^ 32
            saved := [] } : Sampler d) := by
      refine ⟨⟨⟨l0, hl0', hv0⟩, ?_⟩, fun ps hps => (hp ps hps).2, ?_, by simp, by simp⟩
      · intro i j a b hij ha hb
        have hj : j < size := by
          have := (List.getElem?_eq_some_iff.1 hb).1; dsimp only at this; omega
        dsimp only at ha hb
        rw [List.getElem?_take_of_lt (by omega)] at ha hb
        exact hmono i j a b hij ha hb
      · intro l hl
        exact hi.counts l (List.mem_of_mem_take hl)
    refine ⟨_, key, ?_, hinv, fun ins s'' h => run_inv o' L ins _ s'' hinv h⟩
    dsimp only
    rw [hsz]
    rcases Nat.le_total s.levels.length o'.levelCap with h | h
    · rw [min_eq_left h, List.take_length, List.take_of_length_le h]
    · rw [min_eq_right h]

/-- The hypotheses are met by the example run restarted with one level. -/
example : ∃ s, Reachable exOpts exL s ∧ s.countSaves ≤ { exOpts with maxNumLevels := 1 }.maxNumSaves ∧
    s.levels.length = 2 := by
  obtain ⟨s, hs, h1, _⟩ := ex_reachable
  exact ⟨s, hs, reachable_saves (o := exOpts) (by simp) hs, by simpa using congrArg List.length h1⟩

/-- A likelihood below the lowest double (minus infinity, say) would make the lowering loop run past
level zero. -/
theorem C18_underflow (v : ℝ) (ls : List Level) (l0 : Level) (h : v < l0.logl.value) :
    lowerLevel (l0 :: ls) v 0 = .ub := by
  simp [lowerLevel, Res.get, h]

end Mica
