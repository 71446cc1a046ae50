import Verif.Model.WholeFl
import Verif.Proof.Whole
import Verif.Proof.SamplerFl2
import Verif.Proof.Vmap

/-!
# The sampler in double values with the model's own moves is the sampler of Model/SamplerFl.lean with some proposals
-/

namespace Mica

open Classical

variable {n : ℕ}

/-- What is asked of a model's move: from vectors with the property it gives vectors with the property or a `logH` that
is not a number, and has no undefined behaviour. -/
structure FMoveKeeps (P : FPerturb n) (Q : (Fin n → ℝ) → Prop) : Prop where
  keep : ∀ s x q, Q x → P s x = .ok q → Q q.1 ∨ q.2 = .nan
  safe : ∀ s x, Q x → P s x ≠ .ub

theorem fKillCopy_mem {d : ℕ} (o : SOpts) (m : ℕ) (ls : List FLevel) (good : List Bool) (mx : ℝ)
    (gs : List Bool) (i : ℕ) (at_ : List (List (ℕ × ℝ))) (ps ps' : List (FParticle d))
    (h : fKillCopy o m ls good mx gs i at_ ps = .ok ps') : ∀ p ∈ ps', p ∈ ps := by
  induction gs generalizing i at_ ps with
  | nil => simp only [fKillCopy] at h; cases h; exact fun p hp => hp
  | cons g gs ih =>
    cases g with
    | true => simp only [fKillCopy] at h; exact ih _ _ _ h
    | false =>
      cases at_ with
      | nil => simp [fKillCopy] at h
      | cons a at_ =>
        simp only [fKillCopy] at h
        obtain ⟨c, hc, h⟩ := Res.bind_eq_ok.1 h
        obtain ⟨pc, hpc, h⟩ := Res.bind_eq_ok.1 h
        obtain ⟨ps1, hps1, h⟩ := Res.bind_eq_ok.1 h
        obtain ⟨_, rfl⟩ := Res.put_eq_ok.1 hps1
        intro p hp
        rcases List.mem_or_eq_of_mem_set (ih _ _ _ h p hp) with h1 | h1
        · exact h1
        · subst h1; exact List.mem_of_getElem? (Res.get_eq_ok.1 hpc)

theorem fKillLagging_mem {d : ℕ} (o : SOpts) (m : ℕ) (ls : List FLevel) (k : KillIn)
    (ps ps' : List (FParticle d)) (h : fKillLagging o m ls k ps = .ok ps') : ∀ p ∈ ps', p ∈ ps := by
  unfold fKillLagging at h
  obtain ⟨⟨good, mx⟩, _, h⟩ := Res.bind_eq_ok.1 h
  dsimp only at h
  split at h
  · exact fKillCopy_mem _ _ _ _ _ _ _ _ _ _ h
  · cases h; exact fun p hp => hp

/-- All particles of one task. -/
def FTaskAll (Q : (Fin n → ℝ) → Prop) (t : FTaskSt n) : Prop := ∀ p ∈ t.particles, Q p.params

theorem fUpdateLevel_params {o : SOpts} {m w : ℕ} {i : LAIn} {t t' : FTaskSt n}
    (h : fUpdateLevelAssignment o m w i t = .ok t') {Q : (Fin n → ℝ) → Prop} (ht : FTaskAll Q t) : FTaskAll Q t' := by
  unfold fUpdateLevelAssignment at h
  obtain ⟨p, hp, h⟩ := Res.bind_eq_ok.1 h
  obtain ⟨r, _, h⟩ := Res.bind_eq_ok.1 h
  obtain ⟨_, _, h⟩ := Res.bind_eq_ok.1 h
  obtain ⟨_, _, h⟩ := Res.bind_eq_ok.1 h
  obtain ⟨_, _, h⟩ := Res.bind_eq_ok.1 h
  obtain ⟨_, _, h⟩ := Res.bind_eq_ok.1 h
  obtain ⟨_, _, h⟩ := Res.bind_eq_ok.1 h
  have hq : Q p.params := ht p (List.mem_of_getElem? (Res.get_eq_ok.1 hp))
  have key : ∀ k, ∀ x ∈ t.particles.set w { p with level := k }, Q x.params := by
    intro k x hx
    rcases List.mem_or_eq_of_mem_set hx with hx | hx
    · exact ht x hx
    · subst hx; exact hq
  split at h
  · split at h
    · obtain ⟨_, _, h⟩ := Res.bind_eq_ok.1 h
      cases h
      exact key _
    · cases h
      exact key _
  · cases h; exact ht

theorem fUpdateParticle_params {L : (Fin n → ℝ) → Fl} {w : ℕ} {i : FUPIn n} {t t' : FTaskSt n}
    (h : fUpdateParticle L w i t = .ok t') {Q : (Fin n → ℝ) → Prop} (ht : FTaskAll Q t) (hq : Q i.proposal ∨ i.logH = .nan) :
    FTaskAll Q t' := by
  unfold fUpdateParticle at h
  obtain ⟨p, hp, h⟩ := Res.bind_eq_ok.1 h
  obtain ⟨_, _, h⟩ := Res.bind_eq_ok.1 h
  obtain ⟨tie, _, h⟩ := Res.bind_eq_ok.1 h
  obtain ⟨_, _, h⟩ := Res.bind_eq_ok.1 h
  cases h
  have hp' : Q p.params := ht p (List.mem_of_getElem? (Res.get_eq_ok.1 hp))
  intro x hx
  rcases List.mem_or_eq_of_mem_set hx with hx | hx
  · exact ht x hx
  · subst hx
    split
    · rename_i hacc
      rcases hq with hq | hq
      · exact hq
      · have := hacc.1
        rw [hq] at this
        simp [Fl.lt, Fl.exp, Fl.le] at this
    · exact hp'

/-- One particle move. -/
theorem fPerturbUpdate_up {P : FPerturb n} {Q : (Fin n → ℝ) → Prop} (hP : FMoveKeeps P Q) (L : (Fin n → ℝ) → Fl) (w : ℕ)
    (cands : List (Fin n)) (h uTie uAcc : ℝ) {t : FTaskSt n} (ht : FTaskAll Q t) :
    ∃ up : FUPIn n, (fPerturbUpdate P L w cands h uTie uAcc t).upTo (fUpdateParticle L w up t) ∧
      ∀ t', fPerturbUpdate P L w cands h uTie uAcc t = .ok t' → FTaskAll Q t' := by
  unfold fPerturbUpdate
  rcases hg : Res.get t.particles w with p | _ | _ | _
  · have hp : Q p.params := ht p (List.mem_of_getElem? (Res.get_eq_ok.1 hg))
    simp only [Res.ok_bind]
    rcases hq : P ⟨cands, h, p.level, t.levels.length, limitAt t.limits⟩ p.params with q | _ | _ | _
    · refine ⟨⟨q.1, q.2, uTie, uAcc⟩, .inl rfl, fun t' h' => ?_⟩
      exact fUpdateParticle_params h' ht (hP.keep _ _ _ hp hq)
    · exact ⟨⟨fun _ => 0, .nan, 0, 0⟩, .inr (.inl rfl), fun t' h' => by cases h'⟩
    · exact absurd hq (hP.safe _ _ hp)
    · exact ⟨⟨fun _ => 0, .nan, 0, 0⟩, .inr (.inr rfl), fun t' h' => by cases h'⟩
  · exact ⟨⟨fun _ => 0, .nan, 0, 0⟩, .inr (.inl rfl), fun t' h' => by cases h'⟩
  · refine ⟨⟨fun _ => 0, .nan, 0, 0⟩, .inl ?_, fun t' h' => by cases h'⟩
    unfold fUpdateParticle
    rw [hg]; rfl
  · exact ⟨⟨fun _ => 0, .nan, 0, 0⟩, .inr (.inr rfl), fun t' h' => by cases h'⟩

theorem fMcmcStepP_up {P : FPerturb n} {Q : (Fin n → ℝ) → Prop} (hP : FMoveKeeps P Q) (o : SOpts) (L : (Fin n → ℝ) → Fl)
    (m : ℕ) (i : StepInP n) {t : FTaskSt n} (ht : FTaskAll Q t) :
    ∃ up : FUPIn n, (fMcmcStepP P o L m i t).upTo (fMcmcStep o L m ⟨i.which, i.uOrder, up, i.la⟩ t) ∧
      ∀ t', fMcmcStepP P o L m i t = .ok t' → FTaskAll Q t' := by
  have key : ∃ up : FUPIn n,
      (fSamplerMove P o L m i t).upTo
        (fMcmcMove o L m ⟨i.which, i.uOrder, up, i.la⟩ t) ∧
      ∀ t', fSamplerMove P o L m i t =
        .ok t' → FTaskAll Q t' := by
    unfold fSamplerMove fMcmcMove
    dsimp only
    split
    · obtain ⟨up, h1, h2⟩ := fPerturbUpdate_up hP L i.which i.cands i.h i.uTie i.uAcc ht
      refine ⟨up, Res.upTo_bind h1 fun x _ => Res.upTo_refl _, fun t' h' => ?_⟩
      obtain ⟨t1, ht1, h'⟩ := Res.bind_eq_ok.1 h'
      exact fUpdateLevel_params h' (h2 t1 ht1)
    · rcases hl : fUpdateLevelAssignment o m i.which i.la t with t1 | _ | _ | _
      · have ht1 := fUpdateLevel_params hl ht
        obtain ⟨up, h1, h2⟩ := fPerturbUpdate_up hP L i.which i.cands i.h i.uTie i.uAcc ht1
        exact ⟨up, h1, h2⟩
      · exact ⟨⟨fun _ => 0, .nan, 0, 0⟩, .inl rfl, fun t' h' => by cases h'⟩
      · exact ⟨⟨fun _ => 0, .nan, 0, 0⟩, .inl rfl, fun t' h' => by cases h'⟩
      · exact ⟨⟨fun _ => 0, .nan, 0, 0⟩, .inl rfl, fun t' h' => by cases h'⟩
  obtain ⟨up, h1, h2⟩ := key
  refine ⟨up, ?_, ?_⟩
  · unfold fMcmcStepP fMcmcStep
    exact Res.upTo_bind h1 fun x _ => Res.upTo_refl _
  · intro t' h
    unfold fMcmcStepP at h
    obtain ⟨t1, ht1, h⟩ := Res.bind_eq_ok.1 h
    have := h2 t1 ht1
    obtain ⟨e, _, h⟩ := Res.bind_eq_ok.1 h
    split at h
    · cases h; exact this
    · obtain ⟨_, _, h⟩ := Res.bind_eq_ok.1 h
      obtain ⟨p, _, h⟩ := Res.bind_eq_ok.1 h
      split at h
      · split at h
        · cases h; exact this
        · cases h
      · cases h; exact this

theorem fMcmcRunP_up {P : FPerturb n} {Q : (Fin n → ℝ) → Prop} (hP : FMoveKeeps P Q) (o : SOpts) (L : (Fin n → ℝ) → Fl)
    (m : ℕ) (is : List (StepInP n)) {t : FTaskSt n} (ht : FTaskAll Q t) :
    ∃ js : List (FStepIn n), js.map (·.which) = is.map (·.which) ∧
      (fMcmcRunP P o L m is t).upTo (fMcmcRun o L m js t) ∧
      ∀ t', fMcmcRunP P o L m is t = .ok t' → FTaskAll Q t' := by
  induction is generalizing t with
  | nil => exact ⟨[], rfl, .inl rfl, fun t' h => by cases h; exact ht⟩
  | cons i is ih =>
    obtain ⟨up, h1, h2⟩ := fMcmcStepP_up hP o L m i ht
    simp only [fMcmcRunP]
    rcases hs : fMcmcStepP P o L m i t with t1 | _ | _ | _
    · obtain ⟨js, hj, h3, h4⟩ := ih (h2 t1 hs)
      refine ⟨⟨i.which, i.uOrder, up, i.la⟩ :: js, by simp [hj], ?_, h4⟩
      simp only [fMcmcRun]
      rw [Res.upTo_ok h1 hs]
      exact h3
    · exact ⟨⟨i.which, i.uOrder, up, i.la⟩ :: is.map fun j => ⟨j.which, 0, ⟨fun _ => 0, .nan, 0, 0⟩, j.la⟩, by simp,
        .inr (.inl rfl), fun t' h' => by cases h'⟩
    · refine ⟨⟨i.which, i.uOrder, up, i.la⟩ :: is.map fun j => ⟨j.which, 0, ⟨fun _ => 0, .nan, 0, 0⟩, j.la⟩, by simp,
        .inl ?_, fun t' h' => by cases h'⟩
      simp only [fMcmcRun]
      rw [hs] at h1
      rcases h1 with h1 | h1 | h1
      · rw [← h1]; rfl
      · cases h1
      · cases h1
    · exact ⟨⟨i.which, i.uOrder, up, i.la⟩ :: is.map fun j => ⟨j.which, 0, ⟨fun _ => 0, .nan, 0, 0⟩, j.la⟩, by simp,
        .inr (.inr rfl), fun t' h' => by cases h'⟩

/-- Inputs that do not matter: the run has stopped before they are used. -/
def fIdle (is : List (StepInP n)) : List (FStepIn n) := is.map fun j => ⟨j.which, 0, ⟨fun _ => 0, .nan, 0, 0⟩, j.la⟩

theorem fRunTasksP_up {P : FPerturb n} {Q : (Fin n → ℝ) → Prop} (hP : FMoveKeeps P Q) (o : SOpts) (L : (Fin n → ℝ) → Fl)
    (ls : List FLevel) (lim : List (Lim n)) (m : ℕ) (pss : List (List (FParticle n))) (iss : List (List (StepInP n)))
    (hp : ∀ ps ∈ pss, ∀ p ∈ ps, Q p.params) :
    ∃ jss : List (List (FStepIn n)), jss.map (List.map (·.which)) = iss.map (List.map (·.which)) ∧
      (fRunTasksP P o L ls lim m pss iss).upTo (fRunTasks o L ls lim m pss jss) ∧
      ∀ ts, fRunTasksP P o L ls lim m pss iss = .ok ts → ∀ t ∈ ts, FTaskAll Q t := by
  have hidle : ∀ iss : List (List (StepInP n)),
      (iss.map fIdle).map (List.map (·.which)) = iss.map (List.map (·.which)) := by
    intro iss
    simp [fIdle, Function.comp_def]
  induction pss generalizing m iss with
  | nil => exact ⟨iss.map fIdle, hidle iss, .inl rfl, fun ts h => by cases h; simp⟩
  | cons ps pss ih =>
    cases iss with
    | nil => exact ⟨[], rfl, .inl rfl, fun ts h => by cases h⟩
    | cons is iss =>
      obtain ⟨js, hj, h1, h2⟩ := fMcmcRunP_up hP o L m is (t := ⟨ps, ls, lim, []⟩) (hp ps (by simp))
      obtain ⟨jss, hjj, h3, h4⟩ := ih o.maxNumLevels iss fun ps' h' => hp ps' (by simp [h'])
      refine ⟨js :: jss, by simp [hj, hjj], ?_, ?_⟩
      · simp only [fRunTasksP, fRunTasks]
        exact Res.upTo_bind h1 fun t _ => Res.upTo_bind h3 fun ts _ => Res.upTo_refl _
      · intro ts h
        simp only [fRunTasksP] at h
        obtain ⟨t1, ht1, h⟩ := Res.bind_eq_ok.1 h
        obtain ⟨ts', hts, h⟩ := Res.bind_eq_ok.1 h
        cases h
        intro t ht
        rcases List.mem_cons.1 ht with e | e
        · subst e; exact h2 _ ht1
        · exact h4 ts' hts t e

theorem fGather_params {o : SOpts} {s s' : FSampler n} {ts : List (FTaskSt n)} {k : KillIn} {Q : (Fin n → ℝ) → Prop}
    (ht : ∀ t ∈ ts, FTaskAll Q t) (h : fGatherTasks o s ts k = .ok s') :
    (∀ ps ∈ s'.tasks, ∀ p ∈ ps, Q p.params) ∧ s'.saved = s.saved := by
  unfold fGatherTasks at h
  dsimp only at h
  split at h
  · cases h
  obtain ⟨root, hroot, h⟩ := Res.bind_eq_ok.1 h
  obtain ⟨b, hb, h⟩ := Res.bind_eq_ok.1 h
  cases h
  have hr := ht root (List.mem_of_getElem? (Res.get_eq_ok.1 hroot))
  have hbr : ∀ p ∈ b.root, p ∈ root.particles := by
    unfold fDoBookkeeping at hb
    obtain ⟨e, _, hb⟩ := Res.bind_eq_ok.1 hb
    split at hb
    · obtain ⟨c, _, hb⟩ := Res.bind_eq_ok.1 hb
      obtain ⟨e', _, hb⟩ := Res.bind_eq_ok.1 hb
      split at hb
      · cases hb; exact fun p hp => hp
      · obtain ⟨r', hr', hb⟩ := Res.bind_eq_ok.1 hb
        cases hb
        exact fKillLagging_mem _ _ _ _ _ _ hr'
    · cases hb; exact fun p hp => hp
  refine ⟨?_, rfl⟩
  intro ps hps p hp
  rcases List.mem_cons.1 hps with e | e
  · subst e; exact hr p (hbr p hp)
  · obtain ⟨t, htm, rfl⟩ := List.mem_map.1 e
    exact ht t (List.mem_of_mem_tail htm) p hp

theorem fSaveStep_params {o : SOpts} {i : FRoundIn n} {s s' : FSampler n} (h : fSaveStep o i s = .ok s') :
    s'.tasks = s.tasks ∧ ∀ p ∈ s'.saved, p ∈ s.saved ∨ ∃ ps ∈ s.tasks, p ∈ ps := by
  unfold fSaveStep at h
  split at h
  · obtain ⟨ps, hps, h⟩ := Res.bind_eq_ok.1 h
    obtain ⟨p, hp, h⟩ := Res.bind_eq_ok.1 h
    cases h
    refine ⟨rfl, fun q hq => ?_⟩
    rcases List.mem_append.1 hq with e | e
    · exact .inl e
    · rw [List.mem_singleton] at e
      subst e
      exact .inr ⟨ps, List.mem_of_getElem? (Res.get_eq_ok.1 hps), List.mem_of_getElem? (Res.get_eq_ok.1 hp)⟩
  · cases h; exact ⟨rfl, fun p hp => .inl hp⟩

/-- One round. -/
theorem fRoundP_up {P : FPerturb n} {Q : (Fin n → ℝ) → Prop} (hP : FMoveKeeps P Q) {o : SOpts} {L : (Fin n → ℝ) → Fl}
    {i : RoundInP n} (hv : ValidRoundP o i) {s : FSampler n} (hp : ∀ ps ∈ s.tasks, ∀ p ∈ ps, Q p.params) :
    ∃ j : FRoundIn n, FValidRound o j ∧ (fRoundP P o L i s).upTo (fRound o L j s) ∧
      ∀ s', fRoundP P o L i s = .ok s' → (∀ ps ∈ s'.tasks, ∀ p ∈ ps, Q p.params) ∧
        ∀ p ∈ s'.saved, p ∈ s.saved ∨ ∃ ps ∈ s'.tasks, p ∈ ps := by
  obtain ⟨jss, hj, h1, h2⟩ := fRunTasksP_up hP o L s.levels s.limits s.maxLvRoot s.tasks i.steps hp
  have hlen : jss.length = i.steps.length := by simpa using congrArg List.length hj
  have hrow : ∀ l ∈ jss, ∃ l' ∈ i.steps, l.map (·.which) = l'.map (·.which) := by
    intro l hl
    have : l.map (·.which) ∈ jss.map (List.map (·.which)) := List.mem_map.2 ⟨l, hl, rfl⟩
    rw [hj] at this
    obtain ⟨l', hl', e⟩ := List.mem_map.1 this
    exact ⟨l', hl', e.symm⟩
  refine ⟨⟨jss, i.kill, i.saveTask, i.saveParticle⟩, ⟨by rw [hlen]; exact hv.nTasks, ?_, ?_, hv.killU, hv.killC,
    hv.saveTask, hv.saveParticle⟩, ?_, ?_⟩
  · intro l hl
    obtain ⟨l', hl', e⟩ := hrow l hl
    have := congrArg List.length e
    simp only [List.length_map] at this
    rw [this]; exact hv.nSteps l' hl'
  · intro l hl st hst
    obtain ⟨l', hl', e⟩ := hrow l hl
    have : st.which ∈ l.map (·.which) := List.mem_map.2 ⟨st, hst, rfl⟩
    rw [e] at this
    obtain ⟨st', hst', e'⟩ := List.mem_map.1 this
    rw [← e']; exact hv.which l' hl' st' hst'
  · unfold fRoundP fRound
    refine Res.upTo_bind h1 fun ts _ => Res.upTo_bind (Res.upTo_refl _) fun s1 _ => ?_
    exact Res.upTo_refl _
  · intro s' h
    unfold fRoundP at h
    obtain ⟨ts, hts, h⟩ := Res.bind_eq_ok.1 h
    obtain ⟨s1, hs1, h⟩ := Res.bind_eq_ok.1 h
    obtain ⟨g1, g2⟩ := fGather_params (h2 ts hts) hs1
    obtain ⟨e1, e2⟩ := fSaveStep_params h
    rw [e1]
    refine ⟨g1, fun p hp' => ?_⟩
    rw [← g2]
    exact e2 p hp'

namespace LineCfg
variable (c : LineCfg)

theorem vinv_congr {pm q : ℕ → ℝ} (h : ∀ i < c.numParams, q i = pm i) (hi : c.VInv pm) : c.VInv q := by
  refine ⟨?_, ?_, ?_⟩
  · intro i hl hn; rw [h i hl]; exact hi.range i hl hn
  · intro i v hl hv; rw [h i hl]; exact hi.fixed i v hl hv
  · intro ho b hb
    obtain ⟨g1, g2⟩ := hi.order ho b hb
    refine ⟨fun k hk => ?_, fun k hk => ?_⟩
    · rw [h _ (c.cen_lt hb hk)]; exact g1 k hk
    · rw [h _ (c.cen_lt hb hk), h _ (c.cen_lt hb (by omega))]; exact g2 k hk

end LineCfg

end Mica
