import Verif.Proof.SamplerFl

/-! # Runs whose likelihood values are replaced in an order-preserving way -/

namespace Mica

open Classical

variable {d : ℕ}

def LogL.by (φ : ℝ → ℝ) (a : LogL) : LogL := ⟨φ a.value, a.tie⟩
def Level.by (φ : ℝ → ℝ) (l : Level) : Level := { l with logl := l.logl.by φ }
def Particle.by (φ : ℝ → ℝ) (p : Particle d) : Particle d := { p with logl := p.logl.by φ }

/-- Thresholds: the lowest is `-DBL_MAX`, the others are likelihoods. -/
def LvOK (L : (Fin d → ℝ) → ℝ) (ls : List Level) : Prop :=
  ∃ vs, ls.map (·.logl.value) = -DBL_MAX :: vs ∧ ∀ v ∈ vs, v ∈ Set.range L

theorem LvOK.of_map {L : (Fin d → ℝ) → ℝ} {a b : List Level} (h : LvOK L a) (e : b.map (·.logl) = a.map (·.logl)) :
    LvOK L b := by
  obtain ⟨vs, h1, h2⟩ := h
  refine ⟨vs, ?_, h2⟩
  have := congrArg (List.map LogL.value) e
  rw [List.map_map, List.map_map] at this
  rw [← h1]
  exact this

theorem LvOK.mem {L : (Fin d → ℝ) → ℝ} {a : List Level} (h : LvOK L a) {l : Level} (hl : l ∈ a) :
    l.logl.value ∈ insert (-DBL_MAX) (Set.range L) := by
  obtain ⟨vs, h1, h2⟩ := h
  have : l.logl.value ∈ -DBL_MAX :: vs := h1 ▸ List.mem_map.2 ⟨l, hl, rfl⟩
  rcases List.mem_cons.1 this with h | h
  · exact .inl h
  · exact .inr (h2 _ h)

/-- What is needed of the replacement: it keeps the order of the likelihood values and of the lowest threshold, and the
decision whether there are enough levels. -/
structure KeepsOrder (o : SOpts) (L : (Fin d → ℝ) → ℝ) (φ : ℝ → ℝ) : Prop where
  mono : StrictMonoOn φ (insert (-DBL_MAX) (Set.range L))
  zero : φ (-DBL_MAX) = -DBL_MAX
  enough : ∀ m ls, (m = 0 → o.maxNumLevels = 0) → LvOK L ls →
    enoughLevels o m (ls.map (Level.by φ)) = enoughLevels o m ls

structure TOK (L : (Fin d → ℝ) → ℝ) (t : TaskSt d) : Prop where
  parts : ∀ p ∈ t.particles, p.logl.value ∈ Set.range L
  levels : LvOK L t.levels
  above : ∀ a ∈ t.above, a.value ∈ Set.range L

def TaskSt.by (φ : ℝ → ℝ) (t : TaskSt d) : TaskSt d :=
  ⟨t.particles.map (Particle.by φ), t.levels.map (Level.by φ), t.limits, t.above.map (LogL.by φ)⟩

variable {o : SOpts} {L : (Fin d → ℝ) → ℝ} {φ : ℝ → ℝ}

theorem logPush_by (hk : KeepsOrder o L φ) {m : ℕ} (hm : m = 0 → o.maxNumLevels = 0) {ls : List Level} (h : LvOK L ls) (w : ℕ) :
    logPush o m (ls.map (Level.by φ)) w = logPush o m ls w := by
  unfold logPush
  rw [hk.enough m ls hm h, List.length_map]

theorem map_set_by (l : List Level) (i : ℕ) (a : Level) :
    (l.map (Level.by φ)).set i (a.by φ) = (l.set i a).map (Level.by φ) := by
  rw [List.map_set]

theorem map_set_logl {l : List Level} {i : ℕ} {a b : Level} (hb : l[i]? = some b) (h : a.logl = b.logl) :
    (l.set i a).map (·.logl) = l.map (·.logl) := by
  rw [List.map_set, h]
  refine List.ext_getElem? fun j => ?_
  rw [List.getElem?_set]
  split
  · subst i
    have : j < l.length := (List.getElem?_eq_some_iff.1 hb).1
    simp [this]
    have := (List.getElem?_eq_some_iff.1 hb).2
    rw [this]
  · rfl

theorem get_map' {α β : Type} (f : α → β) (l : List α) (i : ℕ) :
    Sim (fun b a => b = f a ∧ l[i]? = some a) (Res.get (l.map f) i) (Res.get l i) := by
  unfold Res.get
  rw [List.getElem?_map]
  cases h : l[i]? with
  | none => simp [Sim]
  | some a => exact ⟨rfl, rfl⟩

theorem visitLoop_by (hk : KeepsOrder o L φ) {x : ℝ} (hx : x ∈ Set.range L) (n cur : ℕ) (ls : List Level) (hls : LvOK L ls) :
    Sim (fun a b => a = b.map (Level.by φ) ∧ LvOK L b) (visitLoop (φ x) n cur (ls.map (Level.by φ)))
      (visitLoop x n cur ls) := by
  induction n generalizing cur ls with
  | zero => exact ⟨rfl, hls⟩
  | succ n ih =>
    refine (get_map' _ ls cur).bind fun a b h => ?_
    refine (get_map' _ ls (cur + 1)).bind fun a' b' h' => ?_
    obtain ⟨rfl, hb⟩ := h
    obtain ⟨rfl, hb'⟩ := h'
    have e : (b'.by φ).logl.value < φ x ↔ b'.logl.value < x :=
      hk.mono.lt_iff_lt (hls.mem (List.mem_of_getElem? hb')) (.inr hx)
    by_cases hl : b'.logl.value < x
    · rw [if_pos (e.2 hl), if_pos hl]
      have := ih (cur + 1) (ls.set cur { b with visits := b.visits + 1, exceeds := b.exceeds + 1 })
        (hls.of_map (map_set_logl hb rfl))
      rw [← map_set_by] at this
      exact this
    · rw [if_neg (fun h => hl (e.1 h)), if_neg hl]
      exact ⟨(map_set_by ls cur { b with visits := b.visits + 1 }), hls.of_map (map_set_logl hb rfl)⟩

theorem updateParticle_by (hk : KeepsOrder o L φ) (w : ℕ) (i : UPIn d) {t : TaskSt d} (h : TOK L t) :
    Sim (fun a b => a = b.by φ ∧ TOK L b) (updateParticle (fun x => φ (L x)) w i (t.by φ)) (updateParticle L w i t) := by
  unfold updateParticle
  refine (get_map' _ t.particles w).bind fun p q hp => ?_
  obtain ⟨rfl, hq⟩ := hp
  refine (get_map' _ t.levels q.level).bind fun a b hab => ?_
  obtain ⟨rfl, hb⟩ := hab
  refine (Sim.of_eq rfl).bind fun tie tie' ht => ?_
  subst ht
  have hqm : q.logl.value ∈ Set.range L := h.parts q (List.mem_of_getElem? hq)
  have hacc : acceptUP (b.by φ) i (φ (L i.proposal)) ↔ acceptUP b i (L i.proposal) :=
    and_congr_right fun _ => hk.mono.lt_iff_lt (h.levels.mem (List.mem_of_getElem? hb)) (.inr ⟨_, rfl⟩)
  set q' : Particle d := if acceptUP b i (L i.proposal) then
        { q with params := i.proposal, logl := ⟨L i.proposal, tie⟩ } else q with hq'
  have hp' : (if acceptUP (b.by φ) i (φ (L i.proposal)) then
        { q.by φ with params := i.proposal, logl := ⟨φ (L i.proposal), tie⟩ } else q.by φ) = q'.by φ := by
    rw [hq']
    by_cases ha : acceptUP b i (L i.proposal)
    · rw [if_pos (hacc.2 ha), if_pos ha]; rfl
    · rw [if_neg (fun g => ha (hacc.1 g)), if_neg ha]
  have hq'm : q'.logl.value ∈ Set.range L := by
    rw [hq']
    split
    · exact ⟨_, rfl⟩
    · exact hqm
  have hlv : ({ b.by φ with
      accepts := if acceptUP (b.by φ) i (φ (L i.proposal)) then (b.by φ).accepts + 1 else (b.by φ).accepts
      tries := (b.by φ).tries + 1 } : Level) = Level.by φ { b with
      accepts := if acceptUP b i (L i.proposal) then b.accepts + 1 else b.accepts
      tries := b.tries + 1 } := by
    by_cases ha : acceptUP b i (L i.proposal)
    · rw [if_pos (hacc.2 ha), if_pos ha]; rfl
    · rw [if_neg (fun g => ha (hacc.1 g)), if_neg ha]; rfl
  simp only [hp', hlv]
  have hlev : (t.by φ).levels = t.levels.map (Level.by φ) := rfl
  have hlv2 : (q.by φ).level = q.level := rfl
  simp only [hlev, hlv2]
  rw [map_set_by, List.length_map]
  have hts : LvOK L (t.levels.set q.level { b with
      accepts := if acceptUP b i (L i.proposal) then b.accepts + 1 else b.accepts
      tries := b.tries + 1 }) := h.levels.of_map (map_set_logl hb rfl)
  refine (visitLoop_by hk hq'm _ _ _ hts).bind fun x y hxy => ?_
  refine ⟨?_, ?_⟩
  · obtain ⟨rfl, -⟩ := hxy
    simp only [TaskSt.by, List.map_set]
  · exact ⟨fun p hp => (List.mem_or_eq_of_mem_set hp).elim (h.parts p) fun e => e ▸ hq'm, hxy.2, h.above⟩

theorem updateLevel_by (hk : KeepsOrder o L φ) {m : ℕ} (hm : m = 0 → o.maxNumLevels = 0) (w : ℕ) (i : LAIn) {t : TaskSt d}
    (h : TOK L t) :
    Sim (fun a b => a = b.by φ ∧ TOK L b) (updateLevelAssignment o m w i (t.by φ)) (updateLevelAssignment o m w i t) := by
  unfold updateLevelAssignment
  refine (get_map' _ t.particles w).bind fun p q hp => ?_
  obtain ⟨rfl, hq⟩ := hp
  have hlev : (t.by φ).levels = t.levels.map (Level.by φ) := rfl
  have hlv2 : (q.by φ).level = q.level := rfl
  have hqm : q.logl.value ∈ Set.range L := h.parts q (List.mem_of_getElem? hq)
  rw [hlev, hlv2, List.length_map]
  refine (Sim.of_eq rfl).bind fun r r' hr => ?_
  subst hr
  refine (get_map' _ _ _).bind fun a b hab => ?_
  refine (get_map' _ _ _).bind fun a' b' hab' => ?_
  obtain ⟨rfl, hb⟩ := hab
  obtain ⟨rfl, hb'⟩ := hab'
  rw [logPush_by hk hm h.levels, logPush_by hk hm h.levels, hk.enough m _ hm h.levels]
  refine (Sim.of_eq rfl).bind fun x x' hx => ?_
  refine (Sim.of_eq rfl).bind fun y y' hy => ?_
  refine (Sim.of_eq rfl).bind fun e e' he => ?_
  subst hx hy he
  have hlt : (b.by φ).logl.value < (q.by φ).logl.value ↔ b.logl.value < q.logl.value :=
    hk.mono.lt_iff_lt (h.levels.mem (List.mem_of_getElem? hb)) (.inr hqm)
  have hA : levelLogA o e (b'.by φ) (b.by φ) (x - y) = levelLogA o e b' b (x - y) := rfl
  rw [hA]
  have hpm : ∀ p ∈ t.particles.set w { q with level := r.toNat }, p.logl.value ∈ Set.range L := fun p hp =>
    (List.mem_or_eq_of_mem_set hp).elim (h.parts p) fun e => e ▸ hqm
  by_cases hc : i.uAcc ≤ Real.exp (levelLogA o e b' b (x - y)) ∧ b.logl.value < q.logl.value
  · rw [if_pos ⟨hc.1, hlt.2 hc.2⟩, if_pos hc]
    split
    · refine (Sim.of_eq (show Res.get (t.by φ).limits r.toNat = Res.get t.limits r.toNat from rfl)).bind fun z z' hz => ?_
      subst hz
      refine ⟨?_, hpm, h.levels, h.above⟩
      simp only [TaskSt.by, List.map_set]
      rfl
    · refine ⟨?_, hpm, h.levels, h.above⟩
      simp only [TaskSt.by, List.map_set]
      rfl
  · rw [if_neg (fun g => hc ⟨g.1, hlt.1 g.2⟩), if_neg hc]
    exact ⟨rfl, h⟩

theorem mcmcMove_by (hk : KeepsOrder o L φ) {m : ℕ} (hm : m = 0 → o.maxNumLevels = 0) (i : StepIn d) {t : TaskSt d}
    (h : TOK L t) :
    Sim (fun a b => a = b.by φ ∧ TOK L b) (mcmcMove o (fun x => φ (L x)) m i (t.by φ)) (mcmcMove o L m i t) := by
  unfold mcmcMove
  split
  · refine (updateParticle_by hk _ _ h).bind fun a b hab => ?_
    obtain ⟨rfl, hb⟩ := hab
    exact updateLevel_by hk hm _ _ hb
  · refine (updateLevel_by hk hm _ _ h).bind fun a b hab => ?_
    obtain ⟨rfl, hb⟩ := hab
    exact updateParticle_by hk _ _ hb

theorem mcmcStep_by (hk : KeepsOrder o L φ) {m : ℕ} (hm : m = 0 → o.maxNumLevels = 0) (i : StepIn d) {t : TaskSt d}
    (h : TOK L t) :
    Sim (fun a b => a = b.by φ ∧ TOK L b) (mcmcStep o (fun x => φ (L x)) m i (t.by φ)) (mcmcStep o L m i t) := by
  unfold mcmcStep
  refine (mcmcMove_by hk hm i h).bind fun a t hab => ?_
  obtain ⟨rfl, h⟩ := hab
  have hlev : (t.by φ).levels = t.levels.map (Level.by φ) := rfl
  rw [hlev, hk.enough m _ hm h.levels, List.length_map]
  refine (Sim.of_eq rfl).bind fun e e' he => ?_
  subst he
  split
  · exact ⟨rfl, h⟩
  · refine (get_map' _ _ _).bind fun a b hab => ?_
    obtain ⟨rfl, hb⟩ := hab
    refine (get_map' _ t.particles i.which).bind fun p q hp => ?_
    obtain ⟨rfl, hq⟩ := hp
    have hqm : q.logl.value ∈ Set.range L := h.parts q (List.mem_of_getElem? hq)
    have hlt : (b.by φ).logl.value < (q.by φ).logl.value ↔ b.logl.value < q.logl.value :=
      hk.mono.lt_iff_lt (h.levels.mem (List.mem_of_getElem? hb)) (.inr hqm)
    have hab : (t.by φ).above.length = t.above.length := List.length_map ..
    by_cases hc : b.logl.value < q.logl.value
    · rw [if_pos (hlt.2 hc), if_pos hc, hab]
      split
      · refine ⟨?_, h.parts, h.levels, fun a ha => ?_⟩
        · simp [TaskSt.by, Particle.by]
        · rcases List.mem_append.1 ha with ha | ha
          · exact h.above a ha
          · rw [List.mem_singleton.1 ha]; exact hqm
      · trivial
    · rw [if_neg (fun g => hc (hlt.1 g)), if_neg hc]
      exact ⟨rfl, h⟩

theorem mcmcRun_by (hk : KeepsOrder o L φ) {m : ℕ} (hm : m = 0 → o.maxNumLevels = 0) (is : List (StepIn d)) {t : TaskSt d}
    (h : TOK L t) :
    Sim (fun a b => a = b.by φ ∧ TOK L b) (mcmcRun o (fun x => φ (L x)) m is (t.by φ)) (mcmcRun o L m is t) := by
  induction is generalizing t with
  | nil => exact ⟨rfl, h⟩
  | cons i is ih =>
    refine (mcmcStep_by hk hm i h).bind fun a t hab => ?_
    obtain ⟨rfl, h⟩ := hab
    exact ih h

theorem runTasks_by (hk : KeepsOrder o L φ) {m : ℕ} (hm : m = 0 → o.maxNumLevels = 0) {ls : List Level} (hls : LvOK L ls)
    (lim : List (Lim d)) (pss : List (List (Particle d))) (h : ∀ ps ∈ pss, ∀ p ∈ ps, p.logl.value ∈ Set.range L)
    (iss : List (List (StepIn d))) :
    Sim (fun a b => a = b.map (TaskSt.by φ) ∧ ∀ t ∈ b, TOK L t)
      (runTasks o (fun x => φ (L x)) (ls.map (Level.by φ)) lim m (pss.map (·.map (Particle.by φ))) iss)
      (runTasks o L ls lim m pss iss) := by
  induction pss generalizing m iss with
  | nil => exact ⟨rfl, by simp⟩
  | cons ps pss ih =>
    cases iss with
    | nil => trivial
    | cons is iss =>
      refine (mcmcRun_by hk hm is (t := ⟨ps, ls, lim, []⟩) ⟨h ps (by simp), hls, by simp⟩).bind fun t t' h1 => ?_
      refine (ih id (fun q hq => h q (by simp [hq])) iss).bind fun ts ts' h2 => ?_
      obtain ⟨rfl, h1⟩ := h1
      obtain ⟨rfl, h2⟩ := h2
      exact ⟨rfl, by simpa using ⟨h1, h2⟩⟩

theorem addTask_by (a b c : List Level) :
    addTask (a.map (Level.by φ)) (b.map (Level.by φ)) (c.map (Level.by φ)) = (addTask a b c).map (Level.by φ) := by
  induction a generalizing b c with
  | nil => simp [addTask]
  | cons x a ih =>
    cases b with
    | nil => simp [addTask]
    | cons y b =>
      cases c with
      | nil => simp [addTask]
      | cons z c => simp [addTask, ih, addCounts, Level.by]

theorem addTask_logl (a b c : List Level) : (addTask a b c).map (·.logl) = b.map (·.logl) := by
  induction a generalizing b c with
  | nil => simp [addTask]
  | cons x a ih =>
    cases b with
    | nil => simp [addTask]
    | cons y b =>
      cases c with
      | nil => simp [addTask]
      | cons z c => simp [addTask, ih, addCounts]

theorem mergeLevels_by (a : List Level) (ts : List (List Level)) (c : List Level) :
    mergeLevels (a.map (Level.by φ)) (ts.map (·.map (Level.by φ))) (c.map (Level.by φ)) =
      (mergeLevels a ts c).map (Level.by φ) := by
  induction ts generalizing c with
  | nil => rfl
  | cons t ts ih => rw [List.map_cons, mergeLevels, addTask_by, ih]; rfl

theorem mergeLevels_logl (a : List Level) (ts : List (List Level)) (c : List Level) :
    (mergeLevels a ts c).map (·.logl) = c.map (·.logl) := by
  induction ts generalizing c with
  | nil => rfl
  | cons t ts ih => rw [mergeLevels, ih, addTask_logl]

theorem renorm_by (r : ℕ) (l : Level) : renormLevel r (l.by φ) = (renormLevel r l).by φ := by
  unfold renormLevel
  by_cases h1 : l.tries ≥ r <;> by_cases h2 : l.visits ≥ r <;>
    simp only [Level.by, h1, h2, if_true, if_false]

theorem recalcFrom_by (o : SOpts) (p : Level) (ls : List Level) :
    recalcFrom o (p.by φ) (ls.map (Level.by φ)) = (recalcFrom o p ls).map (Level.by φ) := by
  induction ls generalizing p with
  | nil => rfl
  | cons l ls ih =>
    simp only [List.map_cons, recalcFrom]
    exact congrArg₂ _ rfl (ih { l with
      logX := p.logX + Real.log (((p.exceeds : ℝ) + 1 / o.compression * o.regularisation) /
        ((p.visits : ℝ) + o.regularisation)) })

theorem recalcLogX_by (o : SOpts) (ls : List Level) :
    recalcLogX o (ls.map (Level.by φ)) = (recalcLogX o ls).map (Level.by φ) := by
  cases ls with
  | nil => rfl
  | cons l ls =>
    simp only [List.map_cons, recalcLogX]
    exact congrArg₂ _ rfl (recalcFrom_by o { l with logX := 0 } ls)

theorem msortC_map_on {α β : Type} (f : α → β) (cmp : β → β → Int) (cmp' : α → α → Int) (l : List α)
    (h : ∀ a ∈ l, ∀ b ∈ l, cmp (f a) (f b) = cmp' a b) : msortC cmp (l.map f) = (msortC cmp' l).map f := by
  have e1 : l.map f = l.attach.map (fun a => f a.1) := by simp
  have e2 : msortC cmp' l = (msortC (fun a b : {x // x ∈ l} => cmp' a.1 b.1) l.attach).map Subtype.val := by
    conv_lhs => rw [← List.attach_map_subtype_val l]
    exact msortC_map Subtype.val cmp' _ (fun _ _ => rfl) _
  rw [e1, e2, List.map_map, msortC_map (fun a : {x // x ∈ l} => f a.1) cmp (fun a b => cmp' a.1 b.1)
    (fun a b => h a.1 a.2 b.1 b.2)]
  rfl

theorem createLevel_by (hk : KeepsOrder o L φ) {comb : List Level} (hc : LvOK L comb) (above : List LogL)
    (ha : ∀ a ∈ above, a.value ∈ Set.range L) :
    Sim (fun x y => x = (y.1.map (Level.by φ), y.2.map (LogL.by φ)) ∧ LvOK L y.1 ∧ ∀ a ∈ y.2, a.value ∈ Set.range L)
      (createLevel o (comb.map (Level.by φ)) (above.map (LogL.by φ))) (createLevel o comb above) := by
  unfold createLevel
  have hs : msortC dnestCmp (above.map (LogL.by φ)) = (msortC dnestCmp above).map (LogL.by φ) := by
    refine msortC_map_on _ _ _ _ fun a h b h' => ?_
    have hlt : φ b.value < φ a.value ↔ b.value < a.value := hk.mono.lt_iff_lt (.inr (ha b h')) (.inr (ha a h))
    have heq : φ a.value = φ b.value ↔ a.value = b.value := hk.mono.injOn.eq_iff (.inr (ha a h)) (.inr (ha b h'))
    simp only [dnestCmp, LogL.by, gt_iff_lt, hlt, heq]
  simp only [hs, List.length_map]
  refine (get_map' _ _ _).bind fun a b hab => ?_
  obtain ⟨rfl, hb⟩ := hab
  have hm : ∀ x ∈ msortC dnestCmp above, x.value ∈ Set.range L := fun x hx =>
    ha x ((msortC_perm dnestCmp above).mem_iff.1 hx)
  split
  · refine ⟨by simp [Level.by], ?_, fun a h => hm a (List.mem_of_mem_take h)⟩
    obtain ⟨vs, h1, h2⟩ := hc
    refine ⟨vs ++ [b.value], by simp [h1], fun v hv => ?_⟩
    rcases List.mem_append.1 hv with hv | hv
    · exact h2 v hv
    · rw [List.mem_singleton.1 hv]; exact hm b (List.mem_of_getElem? hb)
  · trivial

theorem killMark_by (hk : KeepsOrder o L φ) {m : ℕ} (hm : m = 0 → o.maxNumLevels = 0) {ls : List Level} (hls : LvOK L ls)
    (ps : List (Particle d)) (us : List ℝ) (mx : ℝ) :
    killMark o m (ls.map (Level.by φ)) (ps.map (Particle.by φ)) us mx = killMark o m ls ps us mx := by
  induction ps generalizing us mx with
  | nil => rfl
  | cons p ps ih =>
    cases us with
    | nil => rfl
    | cons u us => simp only [List.map_cons, killMark, logPush_by hk hm hls, Particle.by, ih]

theorem killPick_by (hk : KeepsOrder o L φ) {m : ℕ} (hm : m = 0 → o.maxNumLevels = 0) {ls : List Level} (hls : LvOK L ls)
    (good : List Bool) (mx : ℝ) (ps : List (Particle d)) (as : List (ℕ × ℝ)) :
    killPick o m (ls.map (Level.by φ)) good mx (ps.map (Particle.by φ)) as = killPick o m ls good mx ps as := by
  induction as with
  | nil => rfl
  | cons a as ih =>
    obtain ⟨c, u⟩ := a
    have e : ∀ c, Res.get (ps.map (Particle.by φ)) c = Res.get ps c >>= fun p => .ok (p.by φ) := by
      intro c
      unfold Res.get
      rw [List.getElem?_map]
      cases ps[c]? <;> rfl
    simp only [killPick, ih, e]
    cases Res.get good c <;> try rfl
    simp only [Res.ok_bind]
    split
    · rfl
    · cases Res.get ps c <;> try rfl
      simp only [Res.ok_bind]
      rw [logPush_by hk hm hls]
      rfl

theorem killCopy_by (hk : KeepsOrder o L φ) {m : ℕ} (hm : m = 0 → o.maxNumLevels = 0) {ls : List Level} (hls : LvOK L ls)
    (good : List Bool) (mx : ℝ) (gs : List Bool) (i : ℕ) (at_ : List (List (ℕ × ℝ))) (ps : List (Particle d))
    (hps : ∀ p ∈ ps, p.logl.value ∈ Set.range L) :
    Sim (fun a b => a = b.map (Particle.by φ) ∧ ∀ p ∈ b, p.logl.value ∈ Set.range L)
      (killCopy o m (ls.map (Level.by φ)) good mx gs i at_ (ps.map (Particle.by φ)))
      (killCopy o m ls good mx gs i at_ ps) := by
  induction gs generalizing i at_ ps with
  | nil => exact ⟨rfl, hps⟩
  | cons g gs ih =>
    cases g with
    | true => exact ih _ _ _ hps
    | false =>
      cases at_ with
      | nil => trivial
      | cons a at_ =>
        refine (Sim.of_eq (killPick_by hk hm hls good mx ps a)).bind fun c c' hc => ?_
        subst hc
        refine (get_map' _ ps c).bind fun p q hp => ?_
        obtain ⟨rfl, hq⟩ := hp
        have : Sim (fun a b => a = b.map (Particle.by φ) ∧ ∀ p ∈ b, p.logl.value ∈ Set.range L)
            (Res.put (ps.map (Particle.by φ)) i (q.by φ)) (Res.put ps i q) := by
          unfold Res.put
          rw [List.length_map]
          split
          · exact ⟨by rw [List.map_set], fun p hp => (List.mem_or_eq_of_mem_set hp).elim (hps p)
              fun e => e ▸ hps q (List.mem_of_getElem? hq)⟩
          · trivial
        refine this.bind fun a b hab => ?_
        obtain ⟨rfl, hb⟩ := hab
        exact ih _ _ _ hb

theorem killLagging_by (hk : KeepsOrder o L φ) {m : ℕ} (hm : m = 0 → o.maxNumLevels = 0) {ls : List Level} (hls : LvOK L ls)
    (k : KillIn) (ps : List (Particle d)) (hps : ∀ p ∈ ps, p.logl.value ∈ Set.range L) :
    Sim (fun a b => a = b.map (Particle.by φ) ∧ ∀ p ∈ b, p.logl.value ∈ Set.range L)
      (killLagging o m (ls.map (Level.by φ)) k (ps.map (Particle.by φ))) (killLagging o m ls k ps) := by
  unfold killLagging
  rw [killMark_by hk hm hls]
  refine (Sim.of_eq rfl).bind fun x x' hx => ?_
  subst hx
  obtain ⟨good, mx⟩ := x
  dsimp only
  split
  · exact killCopy_by hk hm hls _ _ _ _ _ _ hps
  · exact ⟨rfl, hps⟩

def Book.by (φ : ℝ → ℝ) (b : Book d) : Book d :=
  ⟨b.levels.map (Level.by φ), b.allAbove.map (LogL.by φ), b.maxLvRoot, b.root.map (Particle.by φ)⟩

structure BOK (o : SOpts) (L : (Fin d → ℝ) → ℝ) (b : Book d) : Prop where
  levels : LvOK L b.levels
  above : ∀ a ∈ b.allAbove, a.value ∈ Set.range L
  maxLv : b.maxLvRoot = 0 → o.maxNumLevels = 0
  root : ∀ p ∈ b.root, p.logl.value ∈ Set.range L

theorem LvOK.length {L : (Fin d → ℝ) → ℝ} {ls : List Level} (h : LvOK L ls) : ls.length ≠ 0 := by
  obtain ⟨vs, h1, -⟩ := h
  have := congrArg List.length h1
  simp at this
  omega

theorem doBookkeeping_by (hk : KeepsOrder o L φ) {m : ℕ} (hm : m = 0 → o.maxNumLevels = 0) {comb rl : List Level}
    (hc : LvOK L comb) (hr : LvOK L rl) (above : List LogL) (ha : ∀ a ∈ above, a.value ∈ Set.range L) (k : KillIn)
    (ps : List (Particle d)) (hps : ∀ p ∈ ps, p.logl.value ∈ Set.range L) :
    Sim (fun a b => a = b.by φ ∧ BOK o L b)
      (doBookkeeping o m (comb.map (Level.by φ)) (rl.map (Level.by φ)) (above.map (LogL.by φ)) (ps.map (Particle.by φ)) k)
      (doBookkeeping o m comb rl above ps k) := by
  unfold doBookkeeping
  rw [hk.enough m _ hm hc, List.length_map]
  refine (Sim.of_eq rfl).bind fun e e' he => ?_
  subst he
  split
  · refine (createLevel_by hk hc above ha).bind fun x y hxy => ?_
    obtain ⟨y1, y2⟩ := y
    obtain ⟨rfl, hy, hy2⟩ := hxy
    dsimp only at hy hy2 ⊢
    rw [hk.enough m _ hm hy]
    refine (Sim.of_eq rfl).bind fun e e' he => ?_
    subst he
    split
    · refine ⟨?_, hy.of_map ?_, hy2, fun h0 => absurd h0 hy.length, hps⟩
      · have : (y1.map (Level.by φ)).map (renormLevel o.regularisation) =
            (y1.map (renormLevel o.regularisation)).map (Level.by φ) := by
          simp [renorm_by]
        simp only [Book.by, this, recalcLogX_by, List.length_map]
      · dsimp only
        rw [recalcLogX_map, List.map_map]
        exact List.map_congr_left fun l _ => renormLevel_logl _ l
    · refine (killLagging_by hk hm hr k ps hps).bind fun a b hab => ?_
      obtain ⟨rfl, hb⟩ := hab
      exact ⟨by simp only [Book.by, recalcLogX_by], hy.of_map (recalcLogX_map o y1), hy2, hm, hb⟩
  · exact ⟨by simp only [Book.by, recalcLogX_by], hc.of_map (recalcLogX_map o comb), ha, hm, hps⟩

/-- All likelihood values of the state replaced. -/
def Sampler.by (φ : ℝ → ℝ) (s : Sampler d) : Sampler d :=
  { s with
    tasks := s.tasks.map (·.map (Particle.by φ))
    levels := s.levels.map (Level.by φ)
    allAbove := s.allAbove.map (LogL.by φ)
    saved := s.saved.map (Particle.by φ) }

structure SOK (o : SOpts) (L : (Fin d → ℝ) → ℝ) (s : Sampler d) : Prop where
  tasks : ∀ ps ∈ s.tasks, ∀ p ∈ ps, p.logl.value ∈ Set.range L
  levels : LvOK L s.levels
  above : ∀ a ∈ s.allAbove, a.value ∈ Set.range L
  maxLv : s.maxLvRoot = 0 → o.maxNumLevels = 0
  saved : ∀ p ∈ s.saved, p.logl.value ∈ Set.range L

theorem gatherTasks_by (hk : KeepsOrder o L φ) {s : Sampler d} (h : SOK o L s) (ts : List (TaskSt d)) (ht : ∀ t ∈ ts, TOK L t)
    (k : KillIn) :
    Sim (fun a b => a = b.by φ ∧ SOK o L b) (gatherTasks o (s.by φ) (ts.map (TaskSt.by φ)) k) (gatherTasks o s ts k) := by
  unfold gatherTasks
  have hab : (s.by φ).allAbove ++ ((ts.map (TaskSt.by φ)).map (·.above)).flatten =
      (s.allAbove ++ (ts.map (·.above)).flatten).map (LogL.by φ) := by
    rw [List.map_append, List.map_flatten, List.map_map, List.map_map]
    rfl
  have hlv : (ts.map (TaskSt.by φ)).map (·.levels) = (ts.map (·.levels)).map (·.map (Level.by φ)) := by
    rw [List.map_map, List.map_map]; rfl
  have hlm : (ts.map (TaskSt.by φ)).map (·.limits) = ts.map (·.limits) := by
    rw [List.map_map]; rfl
  have hsl : (s.by φ).levels = s.levels.map (Level.by φ) := rfl
  have hsm : (s.by φ).maxLvRoot = s.maxLvRoot := rfl
  have haa : ∀ a ∈ s.allAbove ++ (ts.map (·.above)).flatten, a.value ∈ Set.range L := by
    intro a ha
    rcases List.mem_append.1 ha with ha | ha
    · exact h.above a ha
    · obtain ⟨l, hl, hal⟩ := List.mem_flatten.1 ha
      obtain ⟨t, htm, rfl⟩ := List.mem_map.1 hl
      exact (ht t htm).above a hal
  dsimp only
  rw [hab, List.length_map]
  split
  · trivial
  · refine (get_map' _ ts 0).bind fun t t' htt => ?_
    obtain ⟨rfl, ht0⟩ := htt
    have htm := List.mem_of_getElem? ht0
    have e1 : (t'.by φ).levels = t'.levels.map (Level.by φ) := rfl
    have e2 : (t'.by φ).particles = t'.particles.map (Particle.by φ) := rfl
    have e3 : (t'.by φ).limits = t'.limits := rfl
    rw [hsl, hlv, mergeLevels_by, e1, e2, hsm]
    refine (doBookkeeping_by hk h.maxLv (h.levels.of_map (mergeLevels_logl _ _ _)) (ht t' htm).levels _ haa k _
      (ht t' htm).parts).bind fun b b' hb => ?_
    obtain ⟨rfl, hb⟩ := hb
    refine ⟨?_, ?_, hb.levels, hb.above, hb.maxLv, h.saved⟩
    · simp only [Sampler.by, Book.by, hlm, e3, List.map_cons, List.length_map, ← List.map_tail, List.map_map]
      rfl
    · intro ps hps
      rcases List.mem_cons.1 hps with rfl | hps
      · exact hb.root
      · obtain ⟨t, htt, rfl⟩ := List.mem_map.1 hps
        exact (ht t (List.mem_of_mem_tail htt)).parts

theorem saveStep_by (i : RoundIn d) {s : Sampler d} (h : SOK o L s) :
    Sim (fun a b => a = b.by φ ∧ SOK o L b) (saveStep o i (s.by φ)) (saveStep o i s) := by
  unfold saveStep
  have e1 : (s.by φ).countMcmc = s.countMcmc := rfl
  have e2 : (s.by φ).countSaves = s.countSaves := rfl
  rw [e1, e2]
  split
  · refine (get_map' _ s.tasks i.saveTask).bind fun ps qs hps => ?_
    obtain ⟨rfl, hq⟩ := hps
    refine (get_map' _ qs i.saveParticle).bind fun p q hp => ?_
    obtain ⟨rfl, hp⟩ := hp
    refine ⟨by simp [Sampler.by], h.tasks, h.levels, h.above, h.maxLv, fun r hr => ?_⟩
    rcases List.mem_append.1 hr with hr | hr
    · exact h.saved r hr
    · rw [List.mem_singleton.1 hr]
      exact h.tasks qs (List.mem_of_getElem? hq) q (List.mem_of_getElem? hp)
  · exact ⟨rfl, h⟩

theorem round_by (hk : KeepsOrder o L φ) (i : RoundIn d) {s : Sampler d} (h : SOK o L s) :
    Sim (fun a b => a = b.by φ ∧ SOK o L b) (round o (fun x => φ (L x)) i (s.by φ)) (round o L i s) := by
  unfold round
  refine (runTasks_by hk h.maxLv h.levels s.limits s.tasks h.tasks i.steps).bind fun ts ts' ht => ?_
  obtain ⟨rfl, ht⟩ := ht
  refine (gatherTasks_by hk h ts' ht _).bind fun a b hab => ?_
  obtain ⟨rfl, hb⟩ := hab
  exact saveStep_by i hb

theorem run_by (hk : KeepsOrder o L φ) (is : List (RoundIn d)) {s : Sampler d} (h : SOK o L s) :
    Sim (fun a b => a = b.by φ ∧ SOK o L b) (run o (fun x => φ (L x)) is (s.by φ)) (run o L is s) := by
  induction is generalizing s with
  | nil => exact ⟨rfl, h⟩
  | cons i is ih =>
    rw [run, run]
    have e : finished o (s.by φ) ↔ finished o s := Iff.rfl
    by_cases hf : finished o s
    · rw [if_pos (e.2 hf), if_pos hf]; exact ⟨rfl, h⟩
    · rw [if_neg (fun g => hf (e.1 g)), if_neg hf]
      refine (round_by hk i h).bind fun a b hab => ?_
      obtain ⟨rfl, hb⟩ := hab
      exact ih hb

theorem init_by (hk : KeepsOrder o L φ) (tie : ℝ) (draws : List (List ((Fin d → ℝ) × ℝ))) :
    initSampler o (fun x => φ (L x)) tie draws = (initSampler o L tie draws).by φ ∧ SOK o L (initSampler o L tie draws) := by
  refine ⟨?_, ?_, ⟨[], by simp [initSampler], by simp⟩, by simp [initSampler], fun h => h, by simp [initSampler]⟩
  · simp only [initSampler, Sampler.by, List.map_map, List.map_cons, List.map_nil, Level.by, LogL.by, hk.zero]
    congr 1
    refine List.map_congr_left fun ds _ => ?_
    show ds.map _ = (ds.map _).map _
    rw [List.map_map]
    rfl
  · intro ps hps p hp
    obtain ⟨ds, -, rfl⟩ := List.mem_map.1 hps
    obtain ⟨x, -, rfl⟩ := List.mem_map.1 hp
    exact ⟨_, rfl⟩

end Mica
