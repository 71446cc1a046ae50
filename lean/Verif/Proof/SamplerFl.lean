import Verif.Spec.SamplerFl
import Verif.Proof.Sampler
import Verif.Proof.SamplerSafe2
import Verif.Proof.Postprocess2

/-!
# The run with arbitrary likelihood values follows the run with real ones

Replacing NaN and minus infinity by `-DBL_MAX` turns the functions of `Verif/Model/SamplerFl.lean`
into those of `Verif/Model/Sampler.lean`, as long as no likelihood is plus infinity.
-/

namespace Mica

open Classical

variable {d : ℕ}

/-- Two results of the same kind whose values are related. -/
def Sim {α β : Type} (R : α → β → Prop) : Res α → Res β → Prop
  | .ok a, .ok b => R a b
  | .exit, .exit => True
  | .ub, .ub => True
  | .hang, .hang => True
  | _, _ => False

theorem Sim.bind {α β α' β' : Type} {R : α → β → Prop} {Q : α' → β' → Prop} {r : Res α} {r' : Res β}
    {f : α → Res α'} {f' : β → Res β'} (h : Sim R r r') (hf : ∀ a b, R a b → Sim Q (f a) (f' b)) :
    Sim Q (r >>= f) (r' >>= f') := by
  cases r <;> cases r' <;> first | exact hf _ _ h | exact h.elim | trivial

theorem Sim.ok {α β : Type} {R : α → β → Prop} {a : α} {b : β} (h : R a b) :
    Sim R (.ok a) (.ok b) := h

theorem Sim.of_eq {α : Type} {r r' : Res α} (h : r = r') : Sim (· = ·) r r' := by
  subst h; cases r <;> simp [Sim]

theorem Sim.get {α β : Type} {R : α → β → Prop} {l : List α} {l' : List β} (h : List.Forall₂ R l l')
    (i : ℕ) : Sim R (Res.get l i) (Res.get l' i) := by
  induction h generalizing i with
  | nil => simp [Res.get, Sim]
  | cons h _ ih =>
    cases i with
    | zero => exact h
    | succ i => exact ih i

/-- A real pair as a pair of doubles. -/
def LogL.toF (a : LogL) : FLogL := ⟨.fin a.value, a.tie⟩

/-- A real level as a level of doubles. -/
def Level.toF (a : Level) : FLevel := ⟨a.logl.toF, a.logX, a.visits, a.exceeds, a.accepts, a.tries⟩

/-- The value of a particle and its replacement. -/
inductive VRel : Fl → ℝ → Prop
  | fin (x : ℝ) : -DBL_MAX ≤ x → VRel (.fin x) x
  | nan : VRel .nan (-DBL_MAX)
  | ninf : VRel (.inf true) (-DBL_MAX)

theorem VRel.lt {v : Fl} {x c : ℝ} (h : VRel v x) (hc : -DBL_MAX ≤ c) : Fl.lt (.fin c) v ↔ c < x := by
  cases h with
  | fin x hx => exact Iff.rfl
  | nan => simp [Fl.lt, hc]
  | ninf => simp [Fl.lt, hc]

theorem VRel.fin_of_lt {v : Fl} {x c : ℝ} (h : VRel v x) (hl : Fl.lt (.fin c) v) : v = .fin x := by
  cases h with
  | fin x hx => rfl
  | nan => simp [Fl.lt] at hl
  | ninf => simp [Fl.lt] at hl

theorem VRel.ge {v : Fl} {x : ℝ} (h : VRel v x) : -DBL_MAX ≤ x := by
  cases h with
  | fin x hx => exact hx
  | nan => exact le_rfl
  | ninf => exact le_rfl

/-- Related particles. -/
structure PRel (L : (Fin d → ℝ) → Fl) (p : FParticle d) (q : Particle d) : Prop where
  params : p.params = q.params
  level : p.level = q.level
  tie : p.logl.tie = q.logl.tie
  value : VRel p.logl.value q.logl.value
  cur : p.logl.value = L p.params
  low : (∃ v, p.logl.value = .fin v) ∨ p.level = 0

/-- All thresholds of a level table are doubles. -/
def Thr (ls : List Level) : Prop := ∀ l ∈ ls, -DBL_MAX ≤ l.logl.value

/-- Related states of a task. -/
structure TRel (L : (Fin d → ℝ) → Fl) (t : FTaskSt d) (t' : TaskSt d) : Prop where
  parts : List.Forall₂ (PRel L) t.particles t'.particles
  levels : t.levels = t'.levels.map Level.toF
  thr : Thr t'.levels
  limits : t.limits = t'.limits
  above : t.above = t'.above.map LogL.toF
  abv : ∀ a ∈ t'.above, -DBL_MAX ≤ a.value

theorem get_map {α β : Type} (f : α → β) (l : List α) (i : ℕ) :
    Sim (fun b a => b = f a ∧ a ∈ l) (Res.get (l.map f) i) (Res.get l i) := by
  unfold Res.get
  rw [List.getElem?_map]
  cases h : l[i]? with
  | none => simp [Sim]
  | some a => exact ⟨rfl, List.mem_of_getElem? h⟩

theorem enoughScan_toF (l : List Level) (n k kc : ℕ) (tot mx : ℝ) :
    Sim (fun a b => a = (.fin b.1, .fin b.2.1, b.2.2))
      (fEnoughScan (l.map Level.toF) n k kc (.fin tot) (.fin mx)) (enoughScan l n k kc tot mx) := by
  induction n generalizing k kc tot mx with
  | zero => exact rfl
  | succ n ih =>
    cases k with
    | zero => exact trivial
    | succ k =>
      refine (get_map _ l (k + 1)).bind fun a b h => ?_
      refine (get_map _ l k).bind fun a' b' h' => ?_
      obtain ⟨rfl, _⟩ := h
      obtain ⟨rfl, _⟩ := h'
      have e : Fl.sub b.toF.logl.value b'.toF.logl.value = .fin (b.logl.value - b'.logl.value) := by
        simp [Fl.sub, Fl.neg, Fl.add, Level.toF, LogL.toF, sub_eq_add_neg]
      have e2 : (if Fl.lt (.fin mx) (.fin (b.logl.value - b'.logl.value)) then
          Fl.fin (b.logl.value - b'.logl.value) else .fin mx) =
          .fin (if b.logl.value - b'.logl.value > mx then b.logl.value - b'.logl.value else mx) := by
        by_cases g : mx < b.logl.value - b'.logl.value
        · rw [if_pos (show Fl.lt (.fin mx) (.fin (b.logl.value - b'.logl.value)) from g), if_pos g]
        · rw [if_neg (show ¬ Fl.lt (.fin mx) (.fin (b.logl.value - b'.logl.value)) from g), if_neg g]
      simp only [e]
      rw [e2]
      split
      · exact rfl
      · exact ih _ _ _ _

theorem enough_toF (o : SOpts) (m : ℕ) (l : List Level) :
    fEnoughLevels o m (l.map Level.toF) = enoughLevels o m l := by
  unfold fEnoughLevels enoughLevels
  simp only [List.length_map]
  split_ifs <;> try rfl
  have h := enoughScan_toF l (numToCheck l.length) (l.length - 1) 0 0 (-DBL_MAX)
  revert h
  generalize fEnoughScan _ _ _ _ _ _ = r
  generalize enoughScan _ _ _ _ _ _ = r'
  intro h
  cases r <;> cases r' <;> first | exact h.elim | rfl | skip
  simp only [Sim] at h
  subst h
  rfl

theorem logPush_toF (o : SOpts) (m : ℕ) (l : List Level) (w : ℕ) :
    fLogPush o m (l.map Level.toF) w = logPush o m l w := by
  unfold fLogPush logPush
  rw [enough_toF, List.length_map]

theorem map_set_toF (l : List Level) (i : ℕ) (a : Level) :
    (l.map Level.toF).set i a.toF = (l.set i a).map Level.toF := by
  rw [List.map_set]

theorem Thr.set {ls : List Level} (h : Thr ls) (i : ℕ) {a : Level} (ha : -DBL_MAX ≤ a.logl.value) :
    Thr (ls.set i a) := fun l hl =>
  (List.mem_or_eq_of_mem_set hl).elim (h l) fun e => e ▸ ha

theorem visitLoop_toF {v : Fl} {x : ℝ} (hv : VRel v x) (n cur : ℕ) (ls : List Level) (hls : Thr ls) :
    Sim (fun a b => a = b.map Level.toF ∧ Thr b) (fVisitLoop v n cur (ls.map Level.toF))
      (visitLoop x n cur ls) := by
  induction n generalizing cur ls with
  | zero => exact ⟨rfl, hls⟩
  | succ n ih =>
    refine (get_map _ ls cur).bind fun a b h => ?_
    refine (get_map _ ls (cur + 1)).bind fun a' b' h' => ?_
    obtain ⟨rfl, hb⟩ := h
    obtain ⟨rfl, hb'⟩ := h'
    have e : Fl.lt b'.toF.logl.value v ↔ b'.logl.value < x := hv.lt (hls _ hb')
    by_cases hl : b'.logl.value < x
    · rw [if_pos (e.2 hl), if_pos hl]
      have := ih (cur + 1) (ls.set cur { b with visits := b.visits + 1, exceeds := b.exceeds + 1 })
        (hls.set _ (hls b hb))
      rw [← map_set_toF] at this
      exact this
    · rw [if_neg (fun h => hl (e.1 h)), if_neg hl]
      exact ⟨(map_set_toF ls cur { b with visits := b.visits + 1 }), hls.set _ (hls b hb)⟩

/-- The inputs of the real run: only `log_H` and, where `log_H` is not a number, the acceptance
number are replaced, keeping the outcome of the acceptance test. -/
noncomputable def FUPIn.toR (i : FUPIn d) : UPIn d :=
  match i.logH with
  | .fin h => ⟨i.proposal, h, i.uTie, i.uAcc⟩
  | .inf false => ⟨i.proposal, 0, i.uTie, i.uAcc⟩
  | .inf true => ⟨i.proposal, 0, i.uTie, if i.uAcc ≤ 0 then 0 else 2⟩
  | .nan => ⟨i.proposal, 0, i.uTie, 2⟩

theorem FUPIn.toR_proposal (i : FUPIn d) : i.toR.proposal = i.proposal := by
  unfold FUPIn.toR; split <;> rfl

theorem FUPIn.toR_uTie (i : FUPIn d) : i.toR.uTie = i.uTie := by
  unfold FUPIn.toR; split <;> rfl

theorem accept_toF {v : Fl} {x : ℝ} (hv : VRel v x) {lv : Level} (hl : -DBL_MAX ≤ lv.logl.value)
    (i : FUPIn d) : fAcceptUP lv.toF i v ↔ acceptUP lv i.toR x := by
  refine and_congr ?_ (hv.lt hl)
  unfold FUPIn.toR
  rcases hh : i.logH with h | s | _
  · by_cases h0 : 0 < h
    · rw [if_pos (show Fl.lt (.fin 0) (.fin h) from h0)]; simp [Fl.exp, Fl.le, h0]
    · rw [if_neg (show ¬ Fl.lt (.fin 0) (.fin h) from h0)]; simp [Fl.exp, Fl.le, h0]
  · cases s with
    | true =>
      rw [if_neg (show ¬ Fl.lt (.fin 0) (.inf true) by simp [Fl.lt])]
      simp only [Fl.exp, Fl.le]
      by_cases hu : i.uAcc ≤ 0 <;> simp [hu]
    | false => rw [if_pos (show Fl.lt (.fin 0) (.inf false) from rfl)]; simp [Fl.exp, Fl.le]
  · rw [if_neg (show ¬ Fl.lt (.fin 0) .nan by simp [Fl.lt])]
    simp [Fl.exp, Fl.le]

theorem forall₂_set {α β : Type} {R : α → β → Prop} {l : List α} {l' : List β}
    (h : List.Forall₂ R l l') (i : ℕ) {a : α} {b : β} (hab : R a b) :
    List.Forall₂ R (l.set i a) (l'.set i b) := by
  induction h generalizing i with
  | nil => exact .nil
  | cons h ht ih =>
    cases i with
    | zero => exact .cons hab ht
    | succ i => exact .cons h (ih i)

theorem NoInf.rel {L : (Fin d → ℝ) → Fl} (h : NoInf L) (x : Fin d → ℝ) : VRel (L x) (floorL L x) := by
  have := h x
  unfold floorL
  revert this
  cases L x with
  | fin v => exact fun g => .fin v (g.2 v rfl)
  | inf s => cases s with
    | true => exact fun _ => .ninf
    | false => exact fun g => absurd rfl g.1
  | nan => exact fun _ => .nan

theorem updateParticle_toF {L : (Fin d → ℝ) → Fl} (hL : NoInf L) (w : ℕ) (i : FUPIn d)
    {t : FTaskSt d} {t' : TaskSt d} (h : TRel L t t') :
    Sim (TRel L) (fUpdateParticle L w i t) (updateParticle (floorL L) w i.toR t') := by
  unfold fUpdateParticle updateParticle
  refine (Sim.get h.parts w).bind fun p q hp => ?_
  rw [h.levels, hp.level]
  refine (get_map _ _ _).bind fun a b hab => ?_
  obtain ⟨rfl, hb⟩ := hab
  rw [FUPIn.toR_proposal, FUPIn.toR_uTie, hp.tie]
  refine (Sim.of_eq rfl).bind fun tie tie' ht => ?_
  subst ht
  have hv := hL.rel i.proposal
  have hbt := h.thr b hb
  have hacc := accept_toF hv hbt i
  have hp' : PRel L (if fAcceptUP b.toF i (L i.proposal) then
        { p with params := i.proposal, logl := ⟨L i.proposal, tie⟩ } else p)
      (if acceptUP b i.toR (floorL L i.proposal) then
        { q with params := i.proposal, logl := ⟨floorL L i.proposal, tie⟩ } else q) := by
    by_cases ha : acceptUP b i.toR (floorL L i.proposal)
    · rw [if_pos (hacc.2 ha), if_pos ha]; exact ⟨rfl, hp.level, rfl, hv, rfl, .inl ⟨_, hv.fin_of_lt (hacc.2 ha).2⟩⟩
    · rw [if_neg (fun g => ha (hacc.1 g)), if_neg ha]; exact hp
  have hlv : ({ b.toF with
      accepts := if fAcceptUP b.toF i (L i.proposal) then b.toF.accepts + 1 else b.toF.accepts
      tries := b.toF.tries + 1 } : FLevel) = Level.toF { b with
      accepts := if acceptUP b i.toR (floorL L i.proposal) then b.accepts + 1 else b.accepts
      tries := b.tries + 1 } := by
    by_cases ha : acceptUP b i.toR (floorL L i.proposal)
    · rw [if_pos (hacc.2 ha), if_pos ha]; rfl
    · rw [if_neg (fun g => ha (hacc.1 g)), if_neg ha]; rfl
  simp only [hp.level] at hp' ⊢
  rw [hlv, map_set_toF, List.length_map]
  have hts : Thr (t'.levels.set q.level { b with
      accepts := if acceptUP b i.toR (floorL L i.proposal) then b.accepts + 1 else b.accepts
      tries := b.tries + 1 }) := h.thr.set _ hbt
  refine (visitLoop_toF hp'.value _ _ _ hts).bind fun x y hxy => ?_
  exact ⟨forall₂_set h.parts w hp', hxy.1, hxy.2, h.limits, h.above, h.abv⟩

theorem updateLevel_toF {L : (Fin d → ℝ) → Fl} (o : SOpts) (m w : ℕ) (i : LAIn) {t : FTaskSt d} {t' : TaskSt d}
    (h : TRel L t t') :
    Sim (TRel L) (fUpdateLevelAssignment o m w i t) (updateLevelAssignment o m w i t') := by
  unfold fUpdateLevelAssignment updateLevelAssignment
  refine (Sim.get h.parts w).bind fun p q hp => ?_
  rw [h.levels, hp.level, List.length_map]
  refine (Sim.of_eq rfl).bind fun r r' hr => ?_
  subst hr
  refine (get_map _ _ _).bind fun a b hab => ?_
  refine (get_map _ _ _).bind fun a' b' hab' => ?_
  obtain ⟨rfl, hb⟩ := hab
  obtain ⟨rfl, hb'⟩ := hab'
  rw [logPush_toF, logPush_toF, enough_toF]
  refine (Sim.of_eq rfl).bind fun x x' hx => ?_
  refine (Sim.of_eq rfl).bind fun y y' hy => ?_
  refine (Sim.of_eq rfl).bind fun e e' he => ?_
  subst hx hy he
  have hlt : Fl.lt b.toF.logl.value p.logl.value ↔ b.logl.value < q.logl.value :=
    hp.value.lt (h.thr b hb)
  have hA : fLevelLogA o e b'.toF b.toF (x - y) = levelLogA o e b' b (x - y) := rfl
  rw [hA]
  by_cases hc : i.uAcc ≤ Real.exp (levelLogA o e b' b (x - y)) ∧ b.logl.value < q.logl.value
  · rw [if_pos ⟨hc.1, hlt.2 hc.2⟩, if_pos hc]
    split
    · rw [h.limits, hp.params]
      refine (Sim.of_eq rfl).bind fun z z' hz => ?_
      subst hz
      exact ⟨forall₂_set h.parts w ⟨rfl, rfl, hp.tie, hp.value, by rw [← hp.params]; exact hp.cur,
          .inl ⟨_, hp.value.fin_of_lt (hlt.2 hc.2)⟩⟩, rfl, h.thr, rfl, h.above, h.abv⟩
    · exact ⟨forall₂_set h.parts w ⟨hp.params, rfl, hp.tie, hp.value, hp.cur,
          .inl ⟨_, hp.value.fin_of_lt (hlt.2 hc.2)⟩⟩, rfl, h.thr, h.limits,
        h.above, h.abv⟩
  · rw [if_neg (fun g => hc ⟨g.1, hlt.1 g.2⟩), if_neg hc]
    exact h

/-- The inputs of the real run. -/
noncomputable def FStepIn.toR (i : FStepIn d) : StepIn d := ⟨i.which, i.uOrder, i.up.toR, i.la⟩

theorem mcmcMove_toF {L : (Fin d → ℝ) → Fl} (hL : NoInf L) (o : SOpts) (m : ℕ) (i : FStepIn d)
    {t : FTaskSt d} {t' : TaskSt d} (h : TRel L t t') :
    Sim (TRel L) (fMcmcMove o L m i t) (mcmcMove o (floorL L) m i.toR t') := by
  unfold fMcmcMove mcmcMove
  by_cases hu : i.uOrder ≤ 0.5
  · rw [if_pos hu, if_pos (show i.toR.uOrder ≤ 0.5 from hu)]
    exact (updateParticle_toF hL _ _ h).bind fun _ _ h => updateLevel_toF _ _ _ _ h
  · rw [if_neg hu, if_neg (show ¬ i.toR.uOrder ≤ 0.5 from hu)]
    exact (updateLevel_toF _ _ _ _ h).bind fun _ _ h => updateParticle_toF hL _ _ h

theorem mcmcStep_toF {L : (Fin d → ℝ) → Fl} (hL : NoInf L) (o : SOpts) (m : ℕ) (i : FStepIn d)
    {t : FTaskSt d} {t' : TaskSt d} (h : TRel L t t') :
    Sim (TRel L) (fMcmcStep o L m i t) (mcmcStep o (floorL L) m i.toR t') := by
  unfold fMcmcStep mcmcStep
  refine (mcmcMove_toF hL o m i h).bind fun t t' h => ?_
  rw [h.levels, enough_toF, List.length_map]
  refine (Sim.of_eq rfl).bind fun e e' he => ?_
  subst he
  split
  · exact h
  · refine (get_map _ _ _).bind fun a b hab => ?_
    obtain ⟨rfl, hb⟩ := hab
    refine (Sim.get h.parts i.which).bind fun p q hp => ?_
    have hlt : Fl.lt b.toF.logl.value p.logl.value ↔ b.logl.value < q.logl.value :=
      hp.value.lt (h.thr b hb)
    by_cases hc : b.logl.value < q.logl.value
    · rw [if_pos (hlt.2 hc), if_pos hc, h.above, List.length_map]
      have e : p.logl = q.logl.toF := by
        have h1 := hp.value.fin_of_lt (hlt.2 hc)
        have h2 := hp.tie
        revert h1 h2
        cases p.logl; simp only; rintro rfl rfl; rfl
      split
      · refine ⟨h.parts, rfl, h.thr, h.limits, by simp [e], fun a ha => ?_⟩
        rcases List.mem_append.1 ha with ha | ha
        · exact h.abv a ha
        · rw [List.mem_singleton.1 ha]; exact hp.value.ge
      · trivial
    · rw [if_neg (fun g => hc (hlt.1 g)), if_neg hc]
      exact h

theorem mcmcRun_toF {L : (Fin d → ℝ) → Fl} (hL : NoInf L) (o : SOpts) (m : ℕ) (is : List (FStepIn d))
    {t : FTaskSt d} {t' : TaskSt d} (h : TRel L t t') :
    Sim (TRel L) (fMcmcRun o L m is t) (mcmcRun o (floorL L) m (is.map FStepIn.toR) t') := by
  induction is generalizing t t' with
  | nil => exact h
  | cons i is ih => exact (mcmcStep_toF hL o m i h).bind fun _ _ h => ih h

theorem runTasks_toF {L : (Fin d → ℝ) → Fl} (hL : NoInf L) (o : SOpts) (ls : List Level) (hls : Thr ls)
    (lim : List (Lim d)) (m : ℕ) {pss : List (List (FParticle d))} {qss : List (List (Particle d))}
    (h : List.Forall₂ (List.Forall₂ (PRel L)) pss qss) (iss : List (List (FStepIn d))) :
    Sim (List.Forall₂ (TRel L)) (fRunTasks o L (ls.map Level.toF) lim m pss iss)
      (runTasks o (floorL L) ls lim m qss (iss.map (·.map FStepIn.toR))) := by
  induction h generalizing m iss with
  | nil => exact .nil
  | cons h ht ih =>
    cases iss with
    | nil => trivial
    | cons is iss =>
      refine (mcmcRun_toF hL o m is (t' := ⟨_, ls, lim, []⟩)
        ⟨h, rfl, hls, rfl, rfl, by simp⟩).bind fun t t' h1 => ?_
      exact (ih _ _).bind fun ts ts' h2 => .cons h1 h2

theorem addCounts_toF (a b c : Level) : fAddCounts a.toF b.toF c.toF = (addCounts a b c).toF := rfl

theorem addTask_toF (a b c : List Level) :
    fAddTask (a.map Level.toF) (b.map Level.toF) (c.map Level.toF) = (addTask a b c).map Level.toF := by
  induction a generalizing b c with
  | nil => simp [fAddTask, addTask]
  | cons x a ih =>
    cases b with
    | nil => simp [fAddTask, addTask]
    | cons y b =>
      cases c with
      | nil => simp [fAddTask, addTask]
      | cons z c => simp [fAddTask, addTask, ih, addCounts_toF]

theorem mergeLevels_toF (a : List Level) (ts : List (List Level)) (c : List Level) :
    fMergeLevels (a.map Level.toF) (ts.map (·.map Level.toF)) (c.map Level.toF) =
      (mergeLevels a ts c).map Level.toF := by
  induction ts generalizing c with
  | nil => rfl
  | cons t ts ih => rw [List.map_cons, fMergeLevels, addTask_toF, ih]; rfl

theorem addTask_thr {a b c : List Level} (h : Thr b) : Thr (addTask a b c) := by
  induction a generalizing b c with
  | nil => simpa [addTask] using h
  | cons x a ih =>
    cases b with
    | nil => simpa [addTask] using h
    | cons y b =>
      cases c with
      | nil => simpa [addTask] using h
      | cons z c =>
        intro l hl
        rw [addTask, List.mem_cons] at hl
        rcases hl with rfl | hl
        · exact h y (by simp)
        · exact ih (b := b) (fun l hl => h l (by simp [hl])) l hl

theorem mergeLevels_thr {a : List Level} {ts : List (List Level)} {c : List Level} (h : Thr c) :
    Thr (mergeLevels a ts c) := by
  induction ts generalizing c with
  | nil => exact h
  | cons t ts ih => exact ih (addTask_thr h)

theorem renorm_toF (r : ℕ) (l : Level) : fRenormLevel r l.toF = (renormLevel r l).toF := by
  unfold fRenormLevel renormLevel
  by_cases h1 : l.tries ≥ r <;> by_cases h2 : l.visits ≥ r <;>
    simp only [Level.toF, h1, h2, if_true, if_false]

theorem recalcFrom_toF (o : SOpts) (p : Level) (ls : List Level) :
    fRecalcFrom o p.toF (ls.map Level.toF) = (recalcFrom o p ls).map Level.toF := by
  induction ls generalizing p with
  | nil => rfl
  | cons l ls ih =>
    simp only [List.map_cons, fRecalcFrom, recalcFrom]
    exact congrArg₂ _ rfl (ih { l with
      logX := p.logX + Real.log (((p.exceeds : ℝ) + 1 / o.compression * o.regularisation) /
        ((p.visits : ℝ) + o.regularisation)) })

theorem recalcLogX_toF (o : SOpts) (ls : List Level) :
    fRecalcLogX o (ls.map Level.toF) = (recalcLogX o ls).map Level.toF := by
  cases ls with
  | nil => rfl
  | cons l ls =>
    simp only [List.map_cons, fRecalcLogX, recalcLogX]
    exact congrArg₂ _ rfl (recalcFrom_toF o { l with logX := 0 } ls)

theorem Thr.of_map {a b : List Level} (h : Thr a) (e : b.map (·.logl) = a.map (·.logl)) : Thr b := by
  intro l hl
  have : l.logl ∈ a.map (·.logl) := e ▸ List.mem_map_of_mem hl
  obtain ⟨x, hx, hxe⟩ := List.mem_map.1 this
  exact hxe ▸ h x hx

theorem cmp_toF (a b : LogL) : fDnestCmp a.toF b.toF = dnestCmp a b := by
  unfold fDnestCmp dnestCmp
  simp only [LogL.toF, Fl.lt, Fl.eqv, gt_iff_lt]

theorem createLevel_toF (o : SOpts) (comb : List Level) (hc : Thr comb) (above : List LogL)
    (ha : ∀ a ∈ above, -DBL_MAX ≤ a.value) :
    Sim (fun x y => x.1 = y.1.map Level.toF ∧ Thr y.1 ∧ x.2 = y.2.map LogL.toF ∧
        ∀ a ∈ y.2, -DBL_MAX ≤ a.value)
      (fCreateLevel o (comb.map Level.toF) (above.map LogL.toF)) (createLevel o comb above) := by
  unfold fCreateLevel createLevel
  simp only [msortC_map LogL.toF fDnestCmp dnestCmp cmp_toF, List.length_map]
  refine (get_map _ _ _).bind fun a b hab => ?_
  obtain ⟨rfl, hb⟩ := hab
  have hm : ∀ x ∈ msortC dnestCmp above, -DBL_MAX ≤ x.value := fun x hx =>
    ha x ((msortC_perm dnestCmp above).mem_iff.1 hx)
  split
  · refine ⟨by simp [Level.toF], fun l hl => ?_, by simp [List.map_take], fun a h =>
      hm a (List.mem_of_mem_take h)⟩
    rcases List.mem_append.1 hl with hl | hl
    · exact hc l hl
    · rw [List.mem_singleton.1 hl]; exact hm b hb
  · trivial

theorem killMark_toF {L : (Fin d → ℝ) → Fl} (o : SOpts) (m : ℕ) (ls : List Level) {ps : List (FParticle d)}
    {qs : List (Particle d)} (h : List.Forall₂ (PRel L) ps qs) (us : List ℝ) (mx : ℝ) :
    fKillMark o m (ls.map Level.toF) ps us mx = killMark o m ls qs us mx := by
  induction h generalizing us mx with
  | nil => rfl
  | cons h ht ih =>
    cases us with
    | nil => rfl
    | cons u us => simp only [fKillMark, killMark, logPush_toF, h.level, ih]

theorem killPick_toF {L : (Fin d → ℝ) → Fl} (o : SOpts) (m : ℕ) (ls : List Level) (good : List Bool) (mx : ℝ)
    {ps : List (FParticle d)} {qs : List (Particle d)} (h : List.Forall₂ (PRel L) ps qs)
    (as : List (ℕ × ℝ)) :
    Sim (· = ·) (fKillPick o m (ls.map Level.toF) good mx ps as) (killPick o m ls good mx qs as) := by
  induction as with
  | nil => trivial
  | cons a as ih =>
    obtain ⟨c, u⟩ := a
    refine (Sim.of_eq rfl).bind fun g g' hg => ?_
    subst hg
    split
    · exact ih
    · refine (Sim.get h c).bind fun p q hp => ?_
      rw [logPush_toF, hp.level]
      refine (Sim.of_eq rfl).bind fun a a' ha => ?_
      subst ha
      split
      · exact ih
      · exact rfl

theorem put_rel {α β : Type} {R : α → β → Prop} {l : List α} {l' : List β} (h : List.Forall₂ R l l')
    (i : ℕ) {a : α} {b : β} (hab : R a b) : Sim (List.Forall₂ R) (Res.put l i a) (Res.put l' i b) := by
  unfold Res.put
  rw [h.length_eq]
  split
  · exact forall₂_set h i hab
  · trivial

theorem killCopy_toF {L : (Fin d → ℝ) → Fl} (o : SOpts) (m : ℕ) (ls : List Level) (good : List Bool) (mx : ℝ)
    (gs : List Bool) (i : ℕ) (at_ : List (List (ℕ × ℝ)))
    {ps : List (FParticle d)} {qs : List (Particle d)} (h : List.Forall₂ (PRel L) ps qs) :
    Sim (List.Forall₂ (PRel L)) (fKillCopy o m (ls.map Level.toF) good mx gs i at_ ps)
      (killCopy o m ls good mx gs i at_ qs) := by
  induction gs generalizing i at_ ps qs with
  | nil => exact h
  | cons g gs ih =>
    cases g with
    | true => exact ih _ _ h
    | false =>
      cases at_ with
      | nil => trivial
      | cons a at_ =>
        refine (killPick_toF o m ls good mx h a).bind fun c c' hc => ?_
        subst hc
        refine (Sim.get h c).bind fun p q hp => ?_
        exact (put_rel h i hp).bind fun ps qs h => ih _ _ h

theorem killLagging_toF {L : (Fin d → ℝ) → Fl} (o : SOpts) (m : ℕ) (ls : List Level) (k : KillIn)
    {ps : List (FParticle d)} {qs : List (Particle d)} (h : List.Forall₂ (PRel L) ps qs) :
    Sim (List.Forall₂ (PRel L)) (fKillLagging o m (ls.map Level.toF) k ps) (killLagging o m ls k qs) := by
  unfold fKillLagging killLagging
  rw [killMark_toF o m ls h]
  refine (Sim.of_eq rfl).bind fun x x' hx => ?_
  subst hx
  obtain ⟨good, mx⟩ := x
  dsimp only
  split
  · exact killCopy_toF o m ls _ _ _ _ _ h
  · exact h

/-- Related results of the bookkeeping. -/
structure BRel (L : (Fin d → ℝ) → Fl) (b : FBook d) (b' : Book d) : Prop where
  levels : b.levels = b'.levels.map Level.toF
  thr : Thr b'.levels
  above : b.allAbove = b'.allAbove.map LogL.toF
  abv : ∀ a ∈ b'.allAbove, -DBL_MAX ≤ a.value
  maxLv : b.maxLvRoot = b'.maxLvRoot
  root : List.Forall₂ (PRel L) b.root b'.root

theorem doBookkeeping_toF {L : (Fin d → ℝ) → Fl} (o : SOpts) (m : ℕ) (comb rl : List Level) (hc : Thr comb)
    (above : List LogL) (ha : ∀ a ∈ above, -DBL_MAX ≤ a.value) (k : KillIn)
    {ps : List (FParticle d)} {qs : List (Particle d)} (h : List.Forall₂ (PRel L) ps qs) :
    Sim (BRel L) (fDoBookkeeping o m (comb.map Level.toF) (rl.map Level.toF) (above.map LogL.toF) ps k)
      (doBookkeeping o m comb rl above qs k) := by
  unfold fDoBookkeeping doBookkeeping
  rw [enough_toF, List.length_map]
  refine (Sim.of_eq rfl).bind fun e e' he => ?_
  subst he
  split
  · refine (createLevel_toF o comb hc above ha).bind fun x y hxy => ?_
    obtain ⟨x1, x2⟩ := x
    obtain ⟨y1, y2⟩ := y
    obtain ⟨rfl, hy, rfl, hy2⟩ := hxy
    dsimp only
    rw [enough_toF]
    refine (Sim.of_eq rfl).bind fun e e' he => ?_
    subst he
    split
    · refine ⟨?_, hy.of_map ?_, rfl, hy2, by simp, h⟩
      · have : (y1.map Level.toF).map (fRenormLevel o.regularisation) =
            (y1.map (renormLevel o.regularisation)).map Level.toF := by
          simp [renorm_toF]
        dsimp only
        rw [this, recalcLogX_toF]
      · dsimp only
        rw [recalcLogX_map, List.map_map]
        exact List.map_congr_left fun l _ => renormLevel_logl _ l
    · refine (killLagging_toF o m rl k h).bind fun a b hab => ?_
      exact ⟨recalcLogX_toF o y1, hy.of_map (recalcLogX_map o y1), rfl, hy2, rfl, hab⟩
  · exact ⟨recalcLogX_toF o comb, hc.of_map (recalcLogX_map o comb), rfl, ha, rfl, h⟩

/-- Related states of the sampler. -/
structure SRel (L : (Fin d → ℝ) → Fl) (s : FSampler d) (s' : Sampler d) : Prop where
  tasks : List.Forall₂ (List.Forall₂ (PRel L)) s.tasks s'.tasks
  levels : s.levels = s'.levels.map Level.toF
  thr : Thr s'.levels
  limits : s.limits = s'.limits
  above : s.allAbove = s'.allAbove.map LogL.toF
  abv : ∀ a ∈ s'.allAbove, -DBL_MAX ≤ a.value
  maxLv : s.maxLvRoot = s'.maxLvRoot
  mcmc : s.countMcmc = s'.countMcmc
  saves : s.countSaves = s'.countSaves
  saved : List.Forall₂ (PRel L) s.saved s'.saved

theorem above_toF {L : (Fin d → ℝ) → Fl} {ts : List (FTaskSt d)} {ts' : List (TaskSt d)} (h : List.Forall₂ (TRel L) ts ts') :
    (ts.map (·.above)).flatten = ((ts'.map (·.above)).flatten).map LogL.toF ∧
    (∀ a ∈ (ts'.map (·.above)).flatten, -DBL_MAX ≤ a.value) ∧
    ts.map (·.levels) = (ts'.map (·.levels)).map (·.map Level.toF) ∧
    ts.map (·.limits) = ts'.map (·.limits) ∧
    List.Forall₂ (List.Forall₂ (PRel L)) (ts.map (·.particles)) (ts'.map (·.particles)) := by
  induction h with
  | nil => simp
  | cons h _ ih =>
    obtain ⟨h1, h2, h3, h4, h5⟩ := ih
    refine ⟨by simp [h.above, h1], ?_, by simp [h.levels, h3], by simp [h.limits, h4],
      .cons h.parts h5⟩
    intro a ha
    simp only [List.map_cons, List.flatten_cons, List.mem_append] at ha
    exact ha.elim (h.abv a) (h2 a)

theorem forall₂_tail {α β : Type} {R : α → β → Prop} {l : List α} {l' : List β}
    (h : List.Forall₂ R l l') : List.Forall₂ R l.tail l'.tail := by
  cases h with
  | nil => exact .nil
  | cons _ h => exact h

theorem gatherTasks_toF {L : (Fin d → ℝ) → Fl} (o : SOpts) {s : FSampler d} {s' : Sampler d} (h : SRel L s s')
    {ts : List (FTaskSt d)} {ts' : List (TaskSt d)} (ht : List.Forall₂ (TRel L) ts ts') (k : KillIn) :
    Sim (SRel L) (fGatherTasks o s ts k) (gatherTasks o s' ts' k) := by
  obtain ⟨h1, h2, h3, h4, h5⟩ := above_toF ht
  unfold fGatherTasks gatherTasks
  have hab : s.allAbove ++ (ts.map (·.above)).flatten =
      (s'.allAbove ++ (ts'.map (·.above)).flatten).map LogL.toF := by
    rw [h.above, h1, List.map_append]
  dsimp only
  rw [hab, List.length_map]
  split
  · trivial
  · refine (Sim.get ht 0).bind fun t t' htt => ?_
    rw [h.levels, h3, mergeLevels_toF, htt.levels, h.maxLv]
    refine (doBookkeeping_toF o _ _ _ (mergeLevels_thr h.thr) _ ?_ k htt.parts).bind fun b b' hb => ?_
    · intro a ha
      exact (List.mem_append.1 ha).elim (h.abv a) (h2 a)
    · refine ⟨.cons hb.root ?_, hb.levels, hb.thr, ?_, hb.above, hb.abv, hb.maxLv, ?_, h.saves,
        h.saved⟩
      · exact (above_toF (forall₂_tail ht)).2.2.2.2
      · dsimp only
        rw [h4, htt.limits, List.length_map]
      · dsimp only
        rw [h.mcmc]

/-- The inputs of the real run. -/
noncomputable def FRoundIn.toR (i : FRoundIn d) : RoundIn d :=
  ⟨i.steps.map (·.map FStepIn.toR), i.kill, i.saveTask, i.saveParticle⟩

theorem forall₂_append {α β : Type} {R : α → β → Prop} {l m : List α} {l' m' : List β}
    (h : List.Forall₂ R l l') (h' : List.Forall₂ R m m') : List.Forall₂ R (l ++ m) (l' ++ m') :=
  List.rel_append h h'

theorem saveStep_toF {L : (Fin d → ℝ) → Fl} (o : SOpts) (i : FRoundIn d) {s : FSampler d} {s' : Sampler d} (h : SRel L s s') :
    Sim (SRel L) (fSaveStep o i s) (saveStep o i.toR s') := by
  unfold fSaveStep saveStep
  rw [h.mcmc, h.saves]
  split
  · refine (Sim.get h.tasks i.saveTask).bind fun ps qs hps => ?_
    refine (Sim.get hps i.saveParticle).bind fun p q hp => ?_
    exact ⟨h.tasks, h.levels, h.thr, h.limits, h.above, h.abv, h.maxLv, rfl, rfl,
      forall₂_append h.saved (.cons hp .nil)⟩
  · exact h

theorem round_toF {L : (Fin d → ℝ) → Fl} (hL : NoInf L) (o : SOpts) (i : FRoundIn d)
    {s : FSampler d} {s' : Sampler d} (h : SRel L s s') :
    Sim (SRel L) (fRound o L i s) (round o (floorL L) i.toR s') := by
  unfold fRound round
  rw [h.levels, h.limits, h.maxLv]
  refine (runTasks_toF hL o _ h.thr _ _ h.tasks _).bind fun ts ts' ht => ?_
  exact (gatherTasks_toF o h ht _).bind fun s s' h => saveStep_toF o i h

theorem run_toF {L : (Fin d → ℝ) → Fl} (hL : NoInf L) (o : SOpts) (is : List (FRoundIn d))
    {s : FSampler d} {s' : Sampler d} (h : SRel L s s') :
    Sim (SRel L) (fRun o L is s) (run o (floorL L) (is.map FRoundIn.toR) s') := by
  induction is generalizing s s' with
  | nil => exact h
  | cons i is ih =>
    rw [List.map_cons, fRun, run]
    have e : fFinished o s ↔ finished o s' := by simp only [fFinished, finished, h.saves]
    by_cases hf : finished o s'
    · rw [if_pos (e.2 hf), if_pos hf]; exact h
    · rw [if_neg (fun g => hf (e.1 g)), if_neg hf]
      exact (round_toF hL o i h).bind fun s s' h => ih h

theorem init_toF {L : (Fin d → ℝ) → Fl} (hL : NoInf L) (o : SOpts) (tie : ℝ)
    (draws : List (List ((Fin d → ℝ) × ℝ))) :
    SRel L (fInitSampler o L tie draws) (initSampler o (floorL L) tie draws) := by
  refine ⟨?_, rfl, ?_, rfl, rfl, by simp [initSampler], rfl, rfl, rfl, .nil⟩
  · refine List.forall₂_map_left_iff.2 (List.forall₂_map_right_iff.2 (List.forall₂_same.2 ?_))
    intro ds _
    refine List.forall₂_map_left_iff.2 (List.forall₂_map_right_iff.2 (List.forall₂_same.2 ?_))
    intro x _
    exact ⟨rfl, rfl, rfl, hL.rel x.1, rfl, .inr rfl⟩
  · intro l hl
    simp only [initSampler, List.mem_singleton] at hl
    subst hl
    exact le_rfl

end Mica
