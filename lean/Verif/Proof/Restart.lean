import Verif.Model.Restart
import Verif.Proof.Limits

/-!
# Restart files: helper lemmas
-/

namespace Mica

variable {d : ℕ}

theorem rdMany_enc {α β : Type} (rd : List (Cell d) → Res (β × List (Cell d)))
    (enc : α → List (Cell d)) (f : α → β) (l : List α)
    (h : ∀ a ∈ l, ∀ cs, rd (enc a ++ cs) = .ok (f a, cs)) (cs : List (Cell d)) :
    rdMany rd l.length ((l.map enc).flatten ++ cs) = .ok (l.map f, cs) := by
  induction l with
  | nil => simp [rdMany]
  | cons a l ih =>
    simp only [List.length_cons, List.map_cons, List.flatten_cons, List.append_assoc, rdMany]
    rw [h a (by simp), Res.ok_bind]
    dsimp only
    rw [ih (fun b hb => h b (by simp [hb]))]
    rfl

theorem rdMany_length {β : Type} (rd : List (Cell d) → Res (β × List (Cell d))) (n : ℕ)
    (cs cs' : List (Cell d)) (l : List β) (h : rdMany rd n cs = .ok (l, cs')) : l.length = n := by
  induction n generalizing cs cs' l with
  | zero => simp only [rdMany] at h; cases h; rfl
  | succ n ih =>
    simp only [rdMany] at h
    obtain ⟨⟨a, c1⟩, _, h⟩ := Res.bind_eq_ok.1 h
    obtain ⟨⟨as, c2⟩, h2, h⟩ := Res.bind_eq_ok.1 h
    cases h
    simp [ih _ _ _ h2]

theorem rdMany_forall {β : Type} (P : β → Prop) (rd : List (Cell d) → Res (β × List (Cell d)))
    (hrd : ∀ cs b cs', rd cs = .ok (b, cs') → P b) (n : ℕ)
    (cs cs' : List (Cell d)) (l : List β) (h : rdMany rd n cs = .ok (l, cs')) : ∀ b ∈ l, P b := by
  induction n generalizing cs cs' l with
  | zero => simp only [rdMany] at h; cases h; simp
  | succ n ih =>
    simp only [rdMany] at h
    obtain ⟨⟨a, c1⟩, h1, h⟩ := Res.bind_eq_ok.1 h
    obtain ⟨⟨as, c2⟩, h2, h⟩ := Res.bind_eq_ok.1 h
    cases h
    intro b hb
    rcases List.mem_cons.1 hb with hb | hb
    · subst hb; exact hrd _ _ _ h1
    · exact ih _ _ _ h2 b hb

theorem rdLim_enc (l : Lim d) (cs : List (Cell d)) :
    rdLim ((List.ofFn fun j => Cell.pair (l j).1 (l j).2) ++ cs) = .ok (l, cs) := by
  have h := rdMany_enc (rdPair (d := d)) (fun p : ℝ × ℝ => [Cell.pair p.1 p.2]) id (List.ofFn l)
    (fun a _ cs => rfl) cs
  have e : (List.map (fun p : ℝ × ℝ => [Cell.pair (d := d) p.1 p.2]) (List.ofFn l)).flatten =
      List.ofFn fun j => Cell.pair (l j).1 (l j).2 := by
    rw [← List.flatMap_def, ← List.map_eq_flatMap, List.map_ofFn]; rfl
  rw [e, List.length_ofFn] at h
  simp only [rdLim, h, Res.ok_bind]
  simp only [List.map_id, Res.pure_eq, Res.ok.injEq, Prod.mk.injEq, and_true]
  funext j
  simp [List.getD_eq_getElem?_getD]

/-- The lowering loop does nothing for a particle that reaches its level. -/
theorem lowerLevel_same (levels : List Level) (v : ℝ) (n : ℕ) (lv : Level)
    (h : levels[n]? = some lv) (hv : lv.logl.value ≤ v) : lowerLevel levels v n = .ok n := by
  have hg : Res.get levels n = .ok lv := Res.get_eq_ok.2 h
  cases n <;> simp [lowerLevel, hg, not_lt.2 hv]

/-- The lowering loop always ends at a level that the particle reaches. -/
theorem lowerLevel_spec (levels : List Level) (v : ℝ) (n : ℕ) (hn : n < levels.length)
    (h0 : ∀ l, levels[0]? = some l → l.logl.value ≤ v) :
    ∃ k ≤ n, lowerLevel levels v n = .ok k ∧ ∃ lv, levels[k]? = some lv ∧ lv.logl.value ≤ v := by
  induction n with
  | zero =>
    have hv := h0 levels[0] (by simp [hn])
    exact ⟨0, le_rfl, by simp [lowerLevel, Res.get_of_lt hn, not_lt.2 hv], levels[0], by simp [hn], hv⟩
  | succ n ih =>
    by_cases hv : v < levels[n + 1].logl.value
    · obtain ⟨k, hk, h1, h2⟩ := ih (by omega)
      exact ⟨k, by omega, by simp [lowerLevel, Res.get_of_lt hn, hv, h1], h2⟩
    · exact ⟨n + 1, le_rfl, by simp [lowerLevel, Res.get_of_lt hn, hv], levels[n + 1], by simp [hn],
        not_lt.1 hv⟩

theorem restartParticles_same (L : (Fin d → ℝ) → ℝ) (levels : List Level) (ps : List (Particle d))
    (h : ∀ p ∈ ps, ParticleOK levels p ∧ LikelihoodCurrent L p) :
    restartParticles L levels (ps.map fun p => (p.level, p.logl)) (ps.map (·.params)) = .ok ps := by
  induction ps with
  | nil => rfl
  | cons p ps ih =>
    obtain ⟨⟨lv, h1, h2⟩, h3⟩ := h p (by simp)
    simp only [List.map_cons, restartParticles]
    rw [lowerLevel_same levels _ _ lv h1 (by rw [← h3]; exact h2), Res.ok_bind,
      ih (fun q hq => h q (by simp [hq]))]
    rw [← h3]; rfl

theorem restartTasks_same (L : (Fin d → ℝ) → ℝ) (levels : List Level)
    (pss : List (List (Particle d)))
    (h : ∀ ps ∈ pss, ∀ p ∈ ps, ParticleOK levels p ∧ LikelihoodCurrent L p) :
    restartTasks L levels (pss.map fun ps => ps.map fun p => (p.level, p.logl))
      (pss.map fun ps => ps.map (·.params)) = .ok pss := by
  induction pss with
  | nil => rfl
  | cons ps pss ih =>
    simp only [List.map_cons, restartTasks]
    rw [restartParticles_same L levels ps (h ps (by simp)), Res.ok_bind,
      ih (fun q hq => h q (by simp [hq]))]
    rfl

theorem restartParticles_spec (L : (Fin d → ℝ) → ℝ) (levels : List Level)
    (h0 : ∀ l, levels[0]? = some l → ∀ x, l.logl.value ≤ L x)
    (as : List (ℕ × LogL)) (xs : List (Fin d → ℝ)) (ha : ∀ a ∈ as, a.1 < levels.length) :
    ∃ ps, restartParticles L levels as xs = .ok ps ∧ ps.length = min as.length xs.length ∧
      ∀ p ∈ ps, ParticleOK levels p ∧ LikelihoodCurrent L p := by
  induction as generalizing xs with
  | nil => exact ⟨[], by simp [restartParticles], by simp, by simp⟩
  | cons a as ih =>
    cases xs with
    | nil => exact ⟨[], by simp [restartParticles], by simp, by simp⟩
    | cons x xs =>
      obtain ⟨n, l⟩ := a
      obtain ⟨k, _, hk, lv, h1, h2⟩ := lowerLevel_spec levels (L x) n (ha (n, l) (by simp))
        (fun l hl => h0 l hl x)
      obtain ⟨ps, hps, hl, hp⟩ := ih xs (fun b hb => ha b (by simp [hb]))
      refine ⟨_, by simp only [restartParticles, hk, Res.ok_bind, hps]; rfl, by simp [hl], ?_⟩
      intro p hpm
      rcases List.mem_cons.1 hpm with hpm | hpm
      · subst hpm; exact ⟨⟨lv, h1, h2⟩, rfl⟩
      · exact hp p hpm

theorem restartTasks_spec (L : (Fin d → ℝ) → ℝ) (levels : List Level)
    (h0 : ∀ l, levels[0]? = some l → ∀ x, l.logl.value ≤ L x) (n : ℕ)
    (ass : List (List (ℕ × LogL))) (xss : List (List (Fin d → ℝ)))
    (ha : ∀ as ∈ ass, as.length = n ∧ ∀ a ∈ as, a.1 < levels.length)
    (hx : ∀ xs ∈ xss, xs.length = n) :
    ∃ pss, restartTasks L levels ass xss = .ok pss ∧ pss.length = min ass.length xss.length ∧
      ∀ ps ∈ pss, ps.length = n ∧ ∀ p ∈ ps, ParticleOK levels p ∧ LikelihoodCurrent L p := by
  induction ass generalizing xss with
  | nil => exact ⟨[], by simp [restartTasks], by simp, by simp⟩
  | cons as ass ih =>
    cases xss with
    | nil => exact ⟨[], by simp [restartTasks], by simp, by simp⟩
    | cons xs xss =>
      obtain ⟨ps, hps, hl, hp⟩ := restartParticles_spec L levels h0 as xs (ha as (by simp)).2
      obtain ⟨pss, hpss, hl2, hp2⟩ := ih xss (fun b hb => ha b (by simp [hb]))
        (fun b hb => hx b (by simp [hb]))
      refine ⟨_, by simp only [restartTasks, hps, Res.ok_bind, hpss]; rfl, by simp [hl2], ?_⟩
      intro q hq
      rcases List.mem_cons.1 hq with hq | hq
      · subst hq
        exact ⟨by rw [hl, (ha as (by simp)).1, hx xs (by simp), min_self], hp⟩
      · exact hp2 q hq

/-- Saves of a run. -/
theorem reachable_saves {o : SOpts} (hN : 0 < o.maxNumSaves) {L : (Fin d → ℝ) → ℝ} {s : Sampler d}
    (hs : Reachable o L s) : s.countSaves ≤ o.maxNumSaves := by
  obtain ⟨tie, draws, ins, _, _, h⟩ := hs
  refine run_induct (P := fun s => s.countSaves ≤ o.maxNumSaves) ins _ _ (Nat.zero_le _) ?_ h
  intro i _ a b h1 hf hr
  have hlt : a.countSaves < o.maxNumSaves := by
    rcases Nat.lt_or_ge a.countSaves o.maxNumSaves with h | h
    · exact h
    · have he : a.countSaves = o.maxNumSaves := by omega
      exact absurd ⟨by omega, by omega, by simp [he]⟩ hf
  unfold round at hr
  obtain ⟨ts, _, hr⟩ := Res.bind_eq_ok.1 hr
  obtain ⟨s1, hs1, hr⟩ := Res.bind_eq_ok.1 hr
  obtain ⟨root, b, _, _, _, rfl⟩ := gatherTasks_shape hs1
  rcases saveStep_shape hr with ⟨_, ps, p, _, _, rfl⟩ | ⟨_, rfl⟩ <;> dsimp only <;> omega

/-- What reading a written file gives, for any well-shaped state. -/
theorem readRestart_write (o o' : SOpts) (L : (Fin d → ℝ) → ℝ) (saved : List (Particle d))
    (s : Sampler d) (size : ℕ) (hf : o'.flagLimits = o.flagLimits)
    (hT : s.tasks.length = o'.totalTask) (hP : ∀ ps ∈ s.tasks, ps.length = o'.numParticles)
    (hlv : ∀ ps ∈ s.tasks, ∀ p ∈ ps, p.level < 2 ^ 32)
    (hlen : s.levels.length < 2 ^ 32) (hlim : s.levels.length ≤ s.limits.length)
    (hsz : restartSize o' s.levels.length = .ok size)
    (hsv : s.countSaves % 2 ^ 32 ≤ o'.maxNumSaves) :
    readRestart o' L saved (writeRestart o s) = (do
      let tasks ← restartTasks L (s.levels.take size)
        (s.tasks.map fun ps => ps.map fun p =>
          (if p.level > size - 1 then size - 1 else p.level, p.logl))
        (s.tasks.map fun ps => ps.map (·.params))
      return {
        tasks := tasks
        levels := s.levels.take size
        limits := if o'.flagLimits then
            (s.limits.take s.levels.length).take size ++
              List.replicate (o'.levelCap - size) (fun _ => (DBL_MAX, -DBL_MAX))
          else List.replicate o'.levelCap (fun _ => (DBL_MAX, -DBL_MAX))
        allAbove := []
        maxLvRoot := o'.maxNumLevels
        countMcmc := s.countMcmc % 2 ^ 32
        countSaves := s.countSaves % 2 ^ 32
        saved := saved }) := by
  have e1 : (s.levels.map (Cell.level (d := d))) = (s.levels.map fun l => [Cell.level l]).flatten := by
    rw [← List.flatMap_def, ← List.map_eq_flatMap]
  have e2 : ∀ ps : List (Particle d), (ps.map fun p => Cell.model p.params) =
      (ps.map fun p => [Cell.model p.params]).flatten := by
    intro ps; rw [← List.flatMap_def, ← List.map_eq_flatMap]
  have r1 : ∀ cs : List (Cell d), rdMany rdLevel s.levels.length ((s.levels.map Cell.level) ++ cs) =
      .ok (s.levels, cs) := by
    intro cs
    rw [e1, rdMany_enc rdLevel (fun l => [Cell.level l]) id s.levels (fun _ _ _ => rfl)]; simp
  have r2 : ∀ cs : List (Cell d), rdMany (rdMany (rdAssign size) o'.numParticles) o'.totalTask
      ((s.tasks.map fun ps =>
        (ps.map fun p => [writeInt p.level, Cell.logl p.logl]).flatten).flatten ++ cs) =
      .ok (s.tasks.map fun ps => ps.map fun p =>
          (if p.level > size - 1 then size - 1 else p.level, p.logl), cs) := by
    intro cs
    rw [← hT]
    refine rdMany_enc _ _ _ s.tasks ?_ cs
    intro ps hps cs
    rw [← hP ps hps]
    refine rdMany_enc _ _ _ ps ?_ cs
    intro p hp cs
    rw [writeInt, Nat.mod_eq_of_lt (hlv ps hps p hp)]; rfl
  have r3 : ∀ cs : List (Cell d), rdMany rdLim s.levels.length
      (((s.limits.take s.levels.length).map fun l =>
        List.ofFn fun j => Cell.pair (l j).1 (l j).2).flatten ++ cs) =
      .ok (s.limits.take s.levels.length, cs) := by
    intro cs
    have hl : (s.limits.take s.levels.length).length = s.levels.length := by
      rw [List.length_take]; omega
    have := rdMany_enc rdLim (fun l : Lim d => List.ofFn fun j => Cell.pair (l j).1 (l j).2) id
      (s.limits.take s.levels.length) (fun l _ cs => rdLim_enc l cs) cs
    rw [hl] at this
    simpa using this
  have r4 : rdMany (rdMany rdModel o'.numParticles) o'.totalTask
      ((s.tasks.map fun ps => ps.map fun p => Cell.model p.params).flatten) =
      .ok (s.tasks.map fun ps => ps.map (·.params), []) := by
    rw [← hT]
    have := rdMany_enc (rdMany rdModel o'.numParticles)
      (fun ps : List (Particle d) => ps.map fun p => Cell.model p.params)
      (fun ps => ps.map (·.params)) s.tasks ?_ []
    · simpa using this
    · intro ps hps cs
      rw [← hP ps hps, e2]
      exact rdMany_enc _ _ _ ps (fun _ _ _ => rfl) cs
  unfold readRestart writeRestart
  simp only [writeInt, List.cons_append, List.nil_append, List.append_assoc, rdInt, Res.ok_bind,
    Nat.mod_eq_of_lt hlen, hsz] at r2 ⊢
  rw [r1]
  simp only [Res.ok_bind, r2, hf, rdLims]
  cases o.flagLimits with
  | true =>
    simp only [if_true, r3, Res.ok_bind, r4]
    rw [if_neg (by omega)]
  | false =>
    simp only [Bool.false_eq_true, if_false, Res.ok_bind, List.nil_append, r4]
    rw [if_neg (by omega)]

end Mica
