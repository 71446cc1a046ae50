import Verif.Model.Resume
import Verif.Props.Restart
import Verif.Props.SamplerSafe

/-!
# C92: which samples a resumed run uses

When a sampling run is resumed, the sample file is appended to, and the posterior is drawn from as many rows of the
file as saves have been counted since the very beginning.
-/

namespace Mica

variable {d : ℕ}

/-- A run only appends to the file of samples, one row per counted save. -/
theorem run_appends {o : SOpts} {L : (Fin d → ℝ) → ℝ} {ins : List (RoundIn d)} {s s' : Sampler d}
    (h : run o L ins s = .ok s') :
    ∃ new, s'.saved = s.saved ++ new ∧ s'.countSaves = s.countSaves + new.length := by
  refine run_induct (P := fun t => ∃ new, t.saved = s.saved ++ new ∧ t.countSaves = s.countSaves + new.length)
    ins s s' ⟨[], by simp, by simp⟩ ?_ h
  rintro i _ a b ⟨new, h1, h2⟩ _ hr
  unfold round at hr
  obtain ⟨ts, _, hr⟩ := Res.bind_eq_ok.1 hr
  obtain ⟨s1, hs1, hr⟩ := Res.bind_eq_ok.1 hr
  obtain ⟨root, bk, _, _, _, rfl⟩ := gatherTasks_shape hs1
  rcases saveStep_shape hr with ⟨_, ps, p, _, _, rfl⟩ | ⟨_, rfl⟩
  · exact ⟨new ++ [p], by simp [h1], by simp [h2]; omega⟩
  · exact ⟨new, h1, h2⟩

/-- A run started with no more saves than requested never makes more, and is finished, having made some, exactly when
it has made the requested number. -/
theorem run_stops {o : SOpts} (hN : 0 < o.maxNumSaves) {L : (Fin d → ℝ) → ℝ} {ins : List (RoundIn d)}
    {s s' : Sampler d} (h0 : s.countSaves ≤ o.maxNumSaves) (h : run o L ins s = .ok s') :
    s'.countSaves ≤ o.maxNumSaves ∧ (finished o s' ↔ s'.countSaves = o.maxNumSaves) := by
  have key : s'.countSaves ≤ o.maxNumSaves := by
    refine run_induct (P := fun t => t.countSaves ≤ o.maxNumSaves) ins s s' h0 ?_ h
    intro i _ a b h2 hf hr
    have hlt : a.countSaves < o.maxNumSaves := by
      rcases Nat.lt_or_eq_of_le h2 with h | h
      · exact h
      · exact absurd ⟨by omega, by omega, by rw [h, Nat.mod_self]⟩ hf
    rcases (round_counts hr).2 with ⟨_, h3, _⟩ | ⟨_, h3, _⟩ <;> omega
  refine ⟨key, ?_, fun h => ⟨by omega, by omega, by rw [h, Nat.mod_self]⟩⟩
  rintro ⟨_, h2, h3⟩
  have := Nat.le_of_dvd (by omega) (Nat.dvd_of_mod_eq_zero h3)
  omega

theorem readRestart_saved {o : SOpts} {L : (Fin d → ℝ) → ℝ} {file : List (Particle d)} {cs : List (Cell d)}
    {s : Sampler d} (h : readRestart o L file cs = .ok s) : s.saved = file ∧ s.countSaves ≤ o.maxNumSaves := by
  unfold readRestart at h
  obtain ⟨⟨nS, c1⟩, _, h⟩ := Res.bind_eq_ok.1 h
  obtain ⟨⟨nM, c2⟩, _, h⟩ := Res.bind_eq_ok.1 h
  obtain ⟨⟨nL, c3⟩, _, h⟩ := Res.bind_eq_ok.1 h
  obtain ⟨size, _, h⟩ := Res.bind_eq_ok.1 h
  obtain ⟨⟨lvs, c4⟩, _, h⟩ := Res.bind_eq_ok.1 h
  obtain ⟨⟨as, c5⟩, _, h⟩ := Res.bind_eq_ok.1 h
  obtain ⟨⟨lims, c6⟩, _, h⟩ := Res.bind_eq_ok.1 h
  obtain ⟨⟨xs, c7⟩, _, h⟩ := Res.bind_eq_ok.1 h
  dsimp only at h
  split at h
  · cases h
  · obtain ⟨tasks, _, h⟩ := Res.bind_eq_ok.1 h
    cases h
    exact ⟨rfl, by dsimp only; omega⟩

/-- C92 (the good case): if the sample file holds exactly the samples counted in the snapshot, then after the resumed
run has finished the posterior is drawn from all samples of the file, the old ones followed by those of the resumed
run, and there are exactly as many as requested. -/
theorem C92_all_used_partial (o : SOpts) (hN : 0 < o.maxNumSaves) (L : (Fin d → ℝ) → ℝ)
    (file : List (Particle d)) (snapshot : List (Cell d)) (s s' : Sampler d) (ins : List (RoundIn d))
    (hs : readRestart o L file snapshot = .ok s) (hfile : file.length = s.countSaves)
    (hr : run o L ins s = .ok s') (hf : finished o s') :
    ∃ new, s'.saved = file ++ new ∧ usedRows s' = .ok (file ++ new) ∧ (file ++ new).length = o.maxNumSaves := by
  obtain ⟨hsv, hle⟩ := readRestart_saved hs
  obtain ⟨new, h1, h2⟩ := run_appends hr
  have h3 := (run_stops hN hle hr).2.1 hf
  refine ⟨new, hsv ▸ h1, ?_, by simp; omega⟩
  unfold usedRows readLines
  rw [h1, hsv, if_neg (by simp; omega), List.take_of_length_le (by simp; omega)]

/-- C92 (rows written after the snapshot): if the file holds `k` rows more than the snapshot counted, the posterior of
the finished resumed run uses every stale row and drops the last samples of the resumed run, as many as there were
stale rows (all of them if it made fewer). -/
theorem C92_stale (o : SOpts) (hN : 0 < o.maxNumSaves) (L : (Fin d → ℝ) → ℝ)
    (old stale : List (Particle d)) (snapshot : List (Cell d)) (s s' : Sampler d) (ins : List (RoundIn d))
    (hs : readRestart o L (old ++ stale) snapshot = .ok s) (hold : old.length = s.countSaves)
    (hr : run o L ins s = .ok s') (hf : finished o s') :
    ∃ new, s'.saved = old ++ stale ++ new ∧ new.length = o.maxNumSaves - old.length ∧
      usedRows s' = .ok (old ++ (stale ++ new).take new.length) := by
  obtain ⟨hsv, hle⟩ := readRestart_saved hs
  obtain ⟨new, h1, h2⟩ := run_appends hr
  have h3 := (run_stops hN hle hr).2.1 hf
  refine ⟨new, hsv ▸ h1, by omega, ?_⟩
  unfold usedRows readLines
  rw [h1, hsv, if_neg (by simp; omega), List.append_assoc, List.take_append, List.take_of_length_le (by omega)]
  congr 3; omega

/-- C92 (rows lost): if the file holds fewer rows than the snapshot counted, the finished run cannot be postprocessed:
the program ends with the message that the file of samples is too short. -/
theorem C92_lost (o : SOpts) (L : (Fin d → ℝ) → ℝ)
    (file : List (Particle d)) (snapshot : List (Cell d)) (s s' : Sampler d) (ins : List (RoundIn d))
    (hs : readRestart o L file snapshot = .ok s) (hfile : file.length < s.countSaves)
    (hr : run o L ins s = .ok s') : usedRows s' = .exit := by
  obtain ⟨hsv, hle⟩ := readRestart_saved hs
  obtain ⟨new, h1, h2⟩ := run_appends hr
  unfold usedRows readLines
  rw [h1, hsv, if_pos (by simp; omega)]

/-- The initial state of the example run, with `c` saves counted and the rows `f` in the file. -/
noncomputable def exState (c : ℕ) (f : List (Particle 1)) : Sampler 1 :=
  { initSampler exOpts exL 0 exDraws with countMcmc := c, countSaves := c, saved := f }

theorem exState_run (c : ℕ) (hc : c < 3) (f : List (Particle 1)) : ∃ s, run exOpts exL [exRound] (exState c f) = .ok s ∧
    s.countSaves = c + 1 := by
  have h1 : exL (fun _ => 1) = 1 := by norm_num [exL]
  have hf : finished exOpts (exState c f) = False := by
    simp only [finished, exState, exOpts_maxNumSaves, eq_iff_iff, iff_false]; omega
  have ht : runTasks exOpts exL exLv0 (exState c f).limits 2
      (exState c f).tasks exRound.steps = .ok
      [⟨[⟨fun _ => 3, ⟨3, 0⟩, 0⟩], [⟨⟨-DBL_MAX, 0⟩, 0, 0, 0, 1, 1⟩],
        [extendLim (fun _ => (DBL_MAX, -DBL_MAX)) (fun _ => 3), fun _ => (DBL_MAX, -DBL_MAX)],
        [⟨3, 0⟩]⟩] := by
    simp [exState, initSampler, exDraws, exRound, runTasks, initParticle, h1, SOpts.levelCap,
      List.replicate, ex_mcmc]
  simp only [run, hf, if_false, round]
  rw [show (exState c f).levels = exLv0 from rfl, show (exState c f).maxLvRoot = 2 from rfl, ht]
  simp only [Res.ok_bind, gatherTasks]
  have hfl : ⌊(2 : ℝ)⁻¹⌋₊ = 0 := by rw [Nat.floor_eq_zero]; norm_num
  have hm : (c + 1) % 4294967296 = c + 1 := by omega
  simp [doBookkeeping, createLevel, exState, initSampler, Res.get, ex_enough, mergeLevels, addTask,
    addCounts, msortC, SOpts.levelCap, hfl, saveStep, exRound, hm]

theorem exState_restart (c : ℕ) (hc : c < 3) (f g : List (Particle 1)) :
    readRestart exOpts exL f (writeRestart exOpts (exState c g)) = .ok (exState c f) := by
  have h1 : exL (fun _ => 1) = 1 := by norm_num [exL]
  have hm : c % 4294967296 = c := by omega
  have hl : lowerLevel [⟨⟨-DBL_MAX, 0⟩, 0, 0, 0, 0, 0⟩] 1 0 = .ok 0 := by
    have := DBL_MAX_pos
    simp only [lowerLevel, Res.get, List.getElem?_cons_zero, Res.ok_bind]
    rw [if_neg (by linarith)]; rfl
  have h3 : ¬ 3 < c := by omega
  simp [readRestart, writeRestart, exState, initSampler, exDraws, initParticle, writeInt, rdInt, restartSize, rdMany,
    rdLevel, rdAssign, rdLims, rdLim, rdPair, rdModel, SOpts.levelCap, hm, h1, restartTasks, restartParticles, hl, h3]

/-- The hypotheses are met with two old rows, a stale one, and one new row; and with no stale row; and with a row
lost. -/
example (p : Particle 1) : ∃ s s' : Sampler 1, ∃ cs, readRestart exOpts exL ([p, p] ++ [p]) cs = .ok s ∧
    [p, p].length = s.countSaves ∧ run exOpts exL [exRound] s = .ok s' ∧ finished exOpts s' := by
  obtain ⟨s', h1, h2⟩ := exState_run 2 (by norm_num) ([p, p] ++ [p])
  exact ⟨exState 2 _, s', _, exState_restart 2 (by norm_num) _ [], rfl, h1, by simp [finished, h2]⟩

example (p : Particle 1) : ∃ s s' : Sampler 1, ∃ cs, readRestart exOpts exL [p, p] cs = .ok s ∧
    [p, p].length = s.countSaves ∧ run exOpts exL [exRound] s = .ok s' ∧ finished exOpts s' := by
  obtain ⟨s', h1, h2⟩ := exState_run 2 (by norm_num) [p, p]
  exact ⟨exState 2 _, s', _, exState_restart 2 (by norm_num) _ [], rfl, h1, by simp [finished, h2]⟩

example (p : Particle 1) : ∃ s s' : Sampler 1, ∃ cs, readRestart exOpts exL [p] cs = .ok s ∧
    [p].length < s.countSaves ∧ run exOpts exL [exRound] s = .ok s' := by
  obtain ⟨s', h1, h2⟩ := exState_run 2 (by norm_num) [p]
  exact ⟨exState 2 _, s', _, exState_restart 2 (by norm_num) _ [], by simp [exState], h1⟩

theorem diskSaves_count (N start k : ℕ) (s : DiskSt) : (diskSaves N start k s).count = s.count + k := by
  induction k with
  | zero => rfl
  | succ k ih => simp [diskSaves, diskSave, ih]; omega

theorem mul_div_step (m k : ℕ) : (if (k + 1) % m = 0 then k + 1 else k / m * m) = (k + 1) / m * m := by
  have h1 := Nat.div_add_mod (k + 1) m
  have h2 := Nat.div_add_mod k m
  split
  · rename_i h; rw [h] at h1; rw [Nat.mul_comm]; omega
  · rename_i h
    have : (k + 1) / m = k / m := by
      rw [Nat.succ_div, if_neg (fun hd => h (Nat.mod_eq_zero_of_dvd hd)), add_zero]
    rw [this]

theorem diskSaves_rows (N start k : ℕ) :
    (diskSaves N start k ⟨start, start, none⟩).rows =
      start + k / max ((N - start) / 50) 1 * max ((N - start) / 50) 1 := by
  induction k with
  | zero => simp [diskSaves]
  | succ k ih =>
    have hc := diskSaves_count N start k ⟨start, start, none⟩
    rw [← mul_div_step _ k]
    simp only [diskSaves, diskSave, hc, ih, numSavesSync]
    rw [show start + k + 1 - start = k + 1 by omega]
    split <;> rfl

theorem diskSaves_snapshot (N start k : ℕ) :
    (diskSaves N start k ⟨start, start, none⟩).snapshot =
      if k < max ((N - start) / 5) 1 then none
      else some (start + k / max ((N - start) / 5) 1 * max ((N - start) / 5) 1) := by
  induction k with
  | zero => rw [if_pos (by omega)]; rfl
  | succ k ih =>
    have hc := diskSaves_count N start k ⟨start, start, none⟩
    have hm : 0 < max ((N - start) / 5) 1 := by omega
    rw [← mul_div_step _ k]
    simp only [diskSaves, diskSave, hc, ih, numSavesSnap]
    rw [show start + k + 1 - start = k + 1 by omega]
    generalize max ((N - start) / 5) 1 = m at hm
    by_cases h : (k + 1) % m = 0
    · rw [if_pos h, if_pos h, if_neg]
      · rfl
      · intro hlt; rw [Nat.mod_eq_of_lt hlt] at h; omega
    · rw [if_neg h, if_neg h]
      by_cases h1 : k + 1 < m
      · rw [if_pos h1, if_pos (by omega)]
      · rw [if_neg h1, if_neg]
        intro h2
        have : k + 1 = m := by omega
        rw [this, Nat.mod_self] at h
        exact h rfl

/-- C92 (when rows can be lost), exactly: every row counted in the last snapshot is safely on disk, at every moment of
the run, if and only if a fiftieth of the saves still to be made when it started (rounded down, at least one) divides
a fifth of them. -/
theorem C92_synced (N start : ℕ) (h0 : start < N) :
    (∀ k ≤ N - start, ∀ snap, (diskSaves N start k ⟨start, start, none⟩).snapshot = some snap →
        snap ≤ (diskSaves N start k ⟨start, start, none⟩).rows) ↔
      max ((N - start) / 50) 1 ∣ max ((N - start) / 5) 1 := by
  simp only [diskSaves_rows, diskSaves_snapshot]
  have hm : 0 < max ((N - start) / 50) 1 := by omega
  have hS : 0 < max ((N - start) / 5) 1 := by omega
  have hle : max ((N - start) / 5) 1 ≤ N - start := by omega
  generalize max ((N - start) / 50) 1 = m at hm
  generalize max ((N - start) / 5) 1 = S at hS hle
  constructor
  · intro h
    have := h S hle (start + S) (by rw [if_neg (lt_irrefl _), Nat.div_self hS, one_mul])
    have h1 : S / m * m ≤ S := Nat.div_mul_le_self S m
    exact ⟨S / m, by rw [Nat.mul_comm]; omega⟩
  · rintro ⟨c, rfl⟩ k _ snap h
    split at h
    · cases h
    · have := Option.some.inj h
      rw [← this]
      refine Nat.add_le_add_left ?_ _
      rw [← Nat.div_div_eq_div_mul, Nat.mul_comm m c, ← Nat.mul_assoc]
      exact Nat.mul_le_mul_right _ (Nat.div_mul_le_self _ _)

/-- In particular nothing is lost if there are less than 100 saves to be made, or a multiple of 50. -/
theorem C92_synced_cases (N start : ℕ) (h : N - start < 100 ∨ 50 ∣ N - start) :
    max ((N - start) / 50) 1 ∣ max ((N - start) / 5) 1 := by
  rcases h with h | ⟨m, h⟩
  · rw [show max ((N - start) / 50) 1 = 1 by omega]
    exact one_dvd _
  · rcases Nat.eq_zero_or_pos m with rfl | hm
    · rw [h]
    · exact ⟨10, by omega⟩

example : 0 < 2000 ∧ 50 ∣ 2000 - 0 ∧ (diskSaves 2000 0 440 ⟨0, 0, none⟩).snapshot = some 400 := by
  decide +kernel

/-- The full claim fails: with the default 2000 saves, a run interrupted after 440 saves leaves a snapshot of 400 saves
and 440 rows in the file. -/
theorem C92_fails_stale : (diskSaves 2000 0 440 ⟨0, 0, none⟩).snapshot = some 400 ∧
    (diskSaves 2000 0 440 ⟨0, 0, none⟩).rows = 440 := by
  decide +kernel

/-- The full claim fails: with 190 saves requested, a snapshot of 38 saves is written when only 36 rows are surely on
disk. -/
theorem C92_fails_lost : (diskSaves 190 0 38 ⟨0, 0, none⟩).snapshot = some 38 ∧
    (diskSaves 190 0 38 ⟨0, 0, none⟩).rows = 36 := by
  decide +kernel

end Mica
