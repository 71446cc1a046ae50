import Verif.Model.Whole
import Verif.Proof.Sessions
import Verif.Proof.LineInv2
import Verif.Proof.Invariance8

/-!
# The sampler with the model's own moves is the sampler of Model/Sampler.lean with some proposals
-/

namespace Mica

variable {n : ℕ}

/-- Equal, or stopped before. -/
def Res.upTo {α : Type} (a b : Res α) : Prop := a = b ∨ a = .exit ∨ a = .hang

theorem Res.upTo_bind {α β : Type} {a b : Res α} {f g : α → Res β} (h : a.upTo b)
    (hf : ∀ x, a = .ok x → (f x).upTo (g x)) : (a >>= f).upTo (b >>= g) := by
  rcases h with h | h | h
  · subst h
    cases a with
    | ok x => exact hf x rfl
    | exit => exact .inl rfl
    | ub => exact .inl rfl
    | hang => exact .inl rfl
  · subst h; exact .inr (.inl rfl)
  · subst h; exact .inr (.inr rfl)

theorem Res.upTo_ok {α : Type} {a b : Res α} {x : α} (h : a.upTo b) (hx : a = .ok x) : b = .ok x := by
  rcases h with h | h | h
  · rw [← h]; exact hx
  · rw [hx] at h; cases h
  · rw [hx] at h; cases h

theorem Res.upTo_refl {α : Type} (a : Res α) : a.upTo a := .inl rfl

theorem Res.upTo_safe {α : Type} {a b : Res α} (h : a.upTo b) (hb : b ≠ .ub) : a ≠ .ub := by
  rcases h with h | h | h
  · rw [h]; exact hb
  · rw [h]; exact fun e => by cases e
  · rw [h]; exact fun e => by cases e

/-- What is asked of a model's move: from vectors with the property it gives vectors with the property, and has no
undefined behaviour. -/
structure MoveKeeps (P : Perturb n) (Q : (Fin n → ℝ) → Prop) : Prop where
  keep : ∀ s x q, Q x → P s x = .ok q → Q q.1
  safe : ∀ s x, Q x → P s x ≠ .ub

/-- All particles of one task. -/
def TaskAll (Q : (Fin n → ℝ) → Prop) (t : TaskSt n) : Prop := ∀ p ∈ t.particles, Q p.params

theorem updateLevel_params {o : SOpts} {m w : ℕ} {i : LAIn} {t t' : TaskSt n}
    (h : updateLevelAssignment o m w i t = .ok t') {Q : (Fin n → ℝ) → Prop} (ht : TaskAll Q t) : TaskAll Q t' := by
  unfold updateLevelAssignment at h
  obtain ⟨p, hp, h⟩ := Res.bind_eq_ok.1 h
  obtain ⟨r, _, h⟩ := Res.bind_eq_ok.1 h
  obtain ⟨_, _, h⟩ := Res.bind_eq_ok.1 h
  obtain ⟨_, _, h⟩ := Res.bind_eq_ok.1 h
  obtain ⟨_, _, h⟩ := Res.bind_eq_ok.1 h
  obtain ⟨_, _, h⟩ := Res.bind_eq_ok.1 h
  obtain ⟨_, _, h⟩ := Res.bind_eq_ok.1 h
  have hq : Q p.params := ht p (List.mem_of_getElem? (Res.get_eq_ok.1 hp))
  have key : ∀ k, ∀ x ∈ t.particles.set w { p with level := k }, Q x.params := by
    intro k x hx
    rcases List.mem_or_eq_of_mem_set hx with hx | hx
    · exact ht x hx
    · subst hx; exact hq
  split at h
  · split at h
    · obtain ⟨_, _, h⟩ := Res.bind_eq_ok.1 h
      cases h
      exact key _
    · cases h
      exact key _
  · cases h; exact ht

theorem updateParticle_params {L : (Fin n → ℝ) → ℝ} {w : ℕ} {i : UPIn n} {t t' : TaskSt n}
    (h : updateParticle L w i t = .ok t') {Q : (Fin n → ℝ) → Prop} (ht : TaskAll Q t) (hq : Q i.proposal) :
    TaskAll Q t' := by
  unfold updateParticle at h
  obtain ⟨p, hp, h⟩ := Res.bind_eq_ok.1 h
  obtain ⟨_, _, h⟩ := Res.bind_eq_ok.1 h
  obtain ⟨tie, _, h⟩ := Res.bind_eq_ok.1 h
  obtain ⟨_, _, h⟩ := Res.bind_eq_ok.1 h
  cases h
  have hp' : Q p.params := ht p (List.mem_of_getElem? (Res.get_eq_ok.1 hp))
  intro x hx
  rcases List.mem_or_eq_of_mem_set hx with hx | hx
  · exact ht x hx
  · subst hx
    split
    · exact hq
    · exact hp'

/-- One particle move. -/
theorem perturbUpdate_up {P : Perturb n} {Q : (Fin n → ℝ) → Prop} (hP : MoveKeeps P Q) (L : (Fin n → ℝ) → ℝ) (w : ℕ)
    (cands : List (Fin n)) (h uTie uAcc : ℝ) {t : TaskSt n} (ht : TaskAll Q t) :
    ∃ up : UPIn n, (perturbUpdate P L w cands h uTie uAcc t).upTo (updateParticle L w up t) ∧
      ∀ t', perturbUpdate P L w cands h uTie uAcc t = .ok t' → TaskAll Q t' := by
  unfold perturbUpdate
  rcases hg : Res.get t.particles w with p | _ | _ | _
  · have hp : Q p.params := ht p (List.mem_of_getElem? (Res.get_eq_ok.1 hg))
    simp only [Res.ok_bind]
    rcases hq : P ⟨cands, h, p.level, t.levels.length, limitAt t.limits⟩ p.params with q | _ | _ | _
    · refine ⟨⟨q.1, q.2, uTie, uAcc⟩, .inl rfl, fun t' h' => ?_⟩
      exact updateParticle_params h' ht (hP.keep _ _ _ hp hq)
    · exact ⟨⟨fun _ => 0, 0, 0, 0⟩, .inr (.inl rfl), fun t' h' => by cases h'⟩
    · exact absurd hq (hP.safe _ _ hp)
    · exact ⟨⟨fun _ => 0, 0, 0, 0⟩, .inr (.inr rfl), fun t' h' => by cases h'⟩
  · exact ⟨⟨fun _ => 0, 0, 0, 0⟩, .inr (.inl rfl), fun t' h' => by cases h'⟩
  · refine ⟨⟨fun _ => 0, 0, 0, 0⟩, .inl ?_, fun t' h' => by cases h'⟩
    unfold updateParticle
    rw [hg]; rfl
  · exact ⟨⟨fun _ => 0, 0, 0, 0⟩, .inr (.inr rfl), fun t' h' => by cases h'⟩

theorem mcmcStepP_up {P : Perturb n} {Q : (Fin n → ℝ) → Prop} (hP : MoveKeeps P Q) (o : SOpts) (L : (Fin n → ℝ) → ℝ)
    (m : ℕ) (i : StepInP n) {t : TaskSt n} (ht : TaskAll Q t) :
    ∃ up : UPIn n, (mcmcStepP P o L m i t).upTo (mcmcStep o L m ⟨i.which, i.uOrder, up, i.la⟩ t) ∧
      ∀ t', mcmcStepP P o L m i t = .ok t' → TaskAll Q t' := by
  have key : ∃ up : UPIn n,
      (samplerMove P o L m i.which i.cands i.uTie (i.uOrder, (i.h, i.uAcc), (i.la.step, i.la.uDir, i.la.uAcc)) t).upTo
        (mcmcMove o L m ⟨i.which, i.uOrder, up, i.la⟩ t) ∧
      ∀ t', samplerMove P o L m i.which i.cands i.uTie (i.uOrder, (i.h, i.uAcc), (i.la.step, i.la.uDir, i.la.uAcc)) t =
        .ok t' → TaskAll Q t' := by
    unfold samplerMove mcmcMove
    dsimp only
    split
    · obtain ⟨up, h1, h2⟩ := perturbUpdate_up hP L i.which i.cands i.h i.uTie i.uAcc ht
      refine ⟨up, Res.upTo_bind h1 fun x _ => Res.upTo_refl _, fun t' h' => ?_⟩
      obtain ⟨t1, ht1, h'⟩ := Res.bind_eq_ok.1 h'
      exact updateLevel_params h' (h2 t1 ht1)
    · rcases hl : updateLevelAssignment o m i.which i.la t with t1 | _ | _ | _
      · have ht1 := updateLevel_params hl ht
        obtain ⟨up, h1, h2⟩ := perturbUpdate_up hP L i.which i.cands i.h i.uTie i.uAcc ht1
        exact ⟨up, h1, h2⟩
      · exact ⟨⟨fun _ => 0, 0, 0, 0⟩, .inl rfl, fun t' h' => by cases h'⟩
      · exact ⟨⟨fun _ => 0, 0, 0, 0⟩, .inl rfl, fun t' h' => by cases h'⟩
      · exact ⟨⟨fun _ => 0, 0, 0, 0⟩, .inl rfl, fun t' h' => by cases h'⟩
  obtain ⟨up, h1, h2⟩ := key
  refine ⟨up, ?_, ?_⟩
  · unfold mcmcStepP mcmcStep
    exact Res.upTo_bind h1 fun x _ => Res.upTo_refl _
  · intro t' h
    unfold mcmcStepP at h
    obtain ⟨t1, ht1, h⟩ := Res.bind_eq_ok.1 h
    have := h2 t1 ht1
    obtain ⟨e, _, h⟩ := Res.bind_eq_ok.1 h
    split at h
    · cases h; exact this
    · obtain ⟨_, _, h⟩ := Res.bind_eq_ok.1 h
      obtain ⟨p, _, h⟩ := Res.bind_eq_ok.1 h
      split at h
      · split at h
        · cases h; exact this
        · cases h
      · cases h; exact this

theorem mcmcRunP_up {P : Perturb n} {Q : (Fin n → ℝ) → Prop} (hP : MoveKeeps P Q) (o : SOpts) (L : (Fin n → ℝ) → ℝ)
    (m : ℕ) (is : List (StepInP n)) {t : TaskSt n} (ht : TaskAll Q t) :
    ∃ js : List (StepIn n), js.map (·.which) = is.map (·.which) ∧
      (mcmcRunP P o L m is t).upTo (mcmcRun o L m js t) ∧
      ∀ t', mcmcRunP P o L m is t = .ok t' → TaskAll Q t' := by
  induction is generalizing t with
  | nil => exact ⟨[], rfl, .inl rfl, fun t' h => by cases h; exact ht⟩
  | cons i is ih =>
    obtain ⟨up, h1, h2⟩ := mcmcStepP_up hP o L m i ht
    simp only [mcmcRunP]
    rcases hs : mcmcStepP P o L m i t with t1 | _ | _ | _
    · obtain ⟨js, hj, h3, h4⟩ := ih (h2 t1 hs)
      refine ⟨⟨i.which, i.uOrder, up, i.la⟩ :: js, by simp [hj], ?_, h4⟩
      simp only [mcmcRun]
      rw [Res.upTo_ok h1 hs]
      exact h3
    · exact ⟨⟨i.which, i.uOrder, up, i.la⟩ :: is.map fun j => ⟨j.which, 0, ⟨fun _ => 0, 0, 0, 0⟩, j.la⟩, by simp,
        .inr (.inl rfl), fun t' h' => by cases h'⟩
    · refine ⟨⟨i.which, i.uOrder, up, i.la⟩ :: is.map fun j => ⟨j.which, 0, ⟨fun _ => 0, 0, 0, 0⟩, j.la⟩, by simp,
        .inl ?_, fun t' h' => by cases h'⟩
      simp only [mcmcRun]
      rw [hs] at h1
      rcases h1 with h1 | h1 | h1
      · rw [← h1]; rfl
      · cases h1
      · cases h1
    · exact ⟨⟨i.which, i.uOrder, up, i.la⟩ :: is.map fun j => ⟨j.which, 0, ⟨fun _ => 0, 0, 0, 0⟩, j.la⟩, by simp,
        .inr (.inr rfl), fun t' h' => by cases h'⟩

/-- Inputs that do not matter: the run has stopped before they are used. -/
def idle (is : List (StepInP n)) : List (StepIn n) := is.map fun j => ⟨j.which, 0, ⟨fun _ => 0, 0, 0, 0⟩, j.la⟩

theorem runTasksP_up {P : Perturb n} {Q : (Fin n → ℝ) → Prop} (hP : MoveKeeps P Q) (o : SOpts) (L : (Fin n → ℝ) → ℝ)
    (ls : List Level) (lim : List (Lim n)) (m : ℕ) (pss : List (List (Particle n))) (iss : List (List (StepInP n)))
    (hp : ∀ ps ∈ pss, ∀ p ∈ ps, Q p.params) :
    ∃ jss : List (List (StepIn n)), jss.map (List.map (·.which)) = iss.map (List.map (·.which)) ∧
      (runTasksP P o L ls lim m pss iss).upTo (runTasks o L ls lim m pss jss) ∧
      ∀ ts, runTasksP P o L ls lim m pss iss = .ok ts → ∀ t ∈ ts, TaskAll Q t := by
  have hidle : ∀ iss : List (List (StepInP n)),
      (iss.map idle).map (List.map (·.which)) = iss.map (List.map (·.which)) := by
    intro iss
    simp [idle, Function.comp_def]
  induction pss generalizing m iss with
  | nil => exact ⟨iss.map idle, hidle iss, .inl rfl, fun ts h => by cases h; simp⟩
  | cons ps pss ih =>
    cases iss with
    | nil => exact ⟨[], rfl, .inl rfl, fun ts h => by cases h⟩
    | cons is iss =>
      obtain ⟨js, hj, h1, h2⟩ := mcmcRunP_up hP o L m is (t := ⟨ps, ls, lim, []⟩) (hp ps (by simp))
      obtain ⟨jss, hjj, h3, h4⟩ := ih o.maxNumLevels iss fun ps' h' => hp ps' (by simp [h'])
      refine ⟨js :: jss, by simp [hj, hjj], ?_, ?_⟩
      · simp only [runTasksP, runTasks]
        exact Res.upTo_bind h1 fun t _ => Res.upTo_bind h3 fun ts _ => Res.upTo_refl _
      · intro ts h
        simp only [runTasksP] at h
        obtain ⟨t1, ht1, h⟩ := Res.bind_eq_ok.1 h
        obtain ⟨ts', hts, h⟩ := Res.bind_eq_ok.1 h
        cases h
        intro t ht
        rcases List.mem_cons.1 ht with e | e
        · subst e; exact h2 _ ht1
        · exact h4 ts' hts t e

theorem gather_params {o : SOpts} {s s' : Sampler n} {ts : List (TaskSt n)} {k : KillIn} {Q : (Fin n → ℝ) → Prop}
    (ht : ∀ t ∈ ts, TaskAll Q t) (h : gatherTasks o s ts k = .ok s') :
    (∀ ps ∈ s'.tasks, ∀ p ∈ ps, Q p.params) ∧ s'.saved = s.saved := by
  unfold gatherTasks at h
  dsimp only at h
  split at h
  · cases h
  obtain ⟨root, hroot, h⟩ := Res.bind_eq_ok.1 h
  obtain ⟨b, hb, h⟩ := Res.bind_eq_ok.1 h
  cases h
  have hr := ht root (List.mem_of_getElem? (Res.get_eq_ok.1 hroot))
  have hbr : ∀ p ∈ b.root, p ∈ root.particles := by
    unfold doBookkeeping at hb
    obtain ⟨e, _, hb⟩ := Res.bind_eq_ok.1 hb
    split at hb
    · obtain ⟨c, _, hb⟩ := Res.bind_eq_ok.1 hb
      obtain ⟨e', _, hb⟩ := Res.bind_eq_ok.1 hb
      split at hb
      · cases hb; exact fun p hp => hp
      · obtain ⟨r', hr', hb⟩ := Res.bind_eq_ok.1 hb
        cases hb
        exact killLagging_mem _ _ _ _ _ _ hr'
    · cases hb; exact fun p hp => hp
  refine ⟨?_, rfl⟩
  intro ps hps p hp
  rcases List.mem_cons.1 hps with e | e
  · subst e; exact hr p (hbr p hp)
  · obtain ⟨t, htm, rfl⟩ := List.mem_map.1 e
    exact ht t (List.mem_of_mem_tail htm) p hp

theorem saveStep_params {o : SOpts} {i : RoundIn n} {s s' : Sampler n} (h : saveStep o i s = .ok s') :
    s'.tasks = s.tasks ∧ ∀ p ∈ s'.saved, p ∈ s.saved ∨ ∃ ps ∈ s.tasks, p ∈ ps := by
  unfold saveStep at h
  split at h
  · obtain ⟨ps, hps, h⟩ := Res.bind_eq_ok.1 h
    obtain ⟨p, hp, h⟩ := Res.bind_eq_ok.1 h
    cases h
    refine ⟨rfl, fun q hq => ?_⟩
    rcases List.mem_append.1 hq with e | e
    · exact .inl e
    · rw [List.mem_singleton] at e
      subst e
      exact .inr ⟨ps, List.mem_of_getElem? (Res.get_eq_ok.1 hps), List.mem_of_getElem? (Res.get_eq_ok.1 hp)⟩
  · cases h; exact ⟨rfl, fun p hp => .inl hp⟩

/-- One round. -/
theorem roundP_up {P : Perturb n} {Q : (Fin n → ℝ) → Prop} (hP : MoveKeeps P Q) {o : SOpts} {L : (Fin n → ℝ) → ℝ}
    {i : RoundInP n} (hv : ValidRoundP o i) {s : Sampler n} (hp : ∀ ps ∈ s.tasks, ∀ p ∈ ps, Q p.params) :
    ∃ j : RoundIn n, ValidRound o j ∧ (roundP P o L i s).upTo (round o L j s) ∧
      ∀ s', roundP P o L i s = .ok s' → (∀ ps ∈ s'.tasks, ∀ p ∈ ps, Q p.params) ∧
        ∀ p ∈ s'.saved, p ∈ s.saved ∨ ∃ ps ∈ s'.tasks, p ∈ ps := by
  obtain ⟨jss, hj, h1, h2⟩ := runTasksP_up hP o L s.levels s.limits s.maxLvRoot s.tasks i.steps hp
  have hlen : jss.length = i.steps.length := by simpa using congrArg List.length hj
  have hrow : ∀ l ∈ jss, ∃ l' ∈ i.steps, l.map (·.which) = l'.map (·.which) := by
    intro l hl
    have : l.map (·.which) ∈ jss.map (List.map (·.which)) := List.mem_map.2 ⟨l, hl, rfl⟩
    rw [hj] at this
    obtain ⟨l', hl', e⟩ := List.mem_map.1 this
    exact ⟨l', hl', e.symm⟩
  refine ⟨⟨jss, i.kill, i.saveTask, i.saveParticle⟩, ⟨by rw [hlen]; exact hv.nTasks, ?_, ?_, hv.killU, hv.killC,
    hv.saveTask, hv.saveParticle⟩, ?_, ?_⟩
  · intro l hl
    obtain ⟨l', hl', e⟩ := hrow l hl
    have := congrArg List.length e
    simp only [List.length_map] at this
    rw [this]; exact hv.nSteps l' hl'
  · intro l hl st hst
    obtain ⟨l', hl', e⟩ := hrow l hl
    have : st.which ∈ l.map (·.which) := List.mem_map.2 ⟨st, hst, rfl⟩
    rw [e] at this
    obtain ⟨st', hst', e'⟩ := List.mem_map.1 this
    rw [← e']; exact hv.which l' hl' st' hst'
  · unfold roundP round
    refine Res.upTo_bind h1 fun ts _ => Res.upTo_bind (Res.upTo_refl _) fun s1 _ => ?_
    exact Res.upTo_refl _
  · intro s' h
    unfold roundP at h
    obtain ⟨ts, hts, h⟩ := Res.bind_eq_ok.1 h
    obtain ⟨s1, hs1, h⟩ := Res.bind_eq_ok.1 h
    obtain ⟨g1, g2⟩ := gather_params (h2 ts hts) hs1
    obtain ⟨e1, e2⟩ := saveStep_params h
    rw [e1]
    refine ⟨g1, fun p hp' => ?_⟩
    rw [← g2]
    exact e2 p hp'

namespace LineCfg
variable (c : LineCfg)

theorem inv_congr (hs : c.SharedOk) {pm q : ℕ → ℝ} (h : ∀ i < c.numParams, q i = pm i) (hi : c.Inv pm) : c.Inv q := by
  refine ⟨?_, ?_, ?_, ?_⟩
  · intro i hl hn; rw [h i hl]; exact hi.range i hl hn
  · intro i v hl hv hns; rw [h i hl]; exact hi.fixed i v hl hv hns
  · intro hu p hp
    obtain ⟨h1, h2⟩ := c.shared_lt hs hu (a := p.1) (s := p.2) hp
    rw [h _ h1, h _ h2]
    exact hi.copy hu p hp
  · intro ho b hb
    obtain ⟨g1, g2⟩ := hi.order ho b hb
    refine ⟨fun k hk => ?_, fun k hk => ?_⟩
    · rw [h _ (c.cen_lt hb hk)]; exact g1 k hk
    · rw [h _ (c.cen_lt hb hk), h _ (c.cen_lt hb (by omega))]; exact g2 k hk

end LineCfg

end Mica
