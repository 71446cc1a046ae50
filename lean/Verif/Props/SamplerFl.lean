import Verif.Proof.SamplerFlExample
import Verif.Proof.SamplerFl2
import Verif.Proof.PostFl
import Verif.Props.Sampler

/-!
# C121: likelihoods that are not numbers

The likelihood is an arbitrary function to doubles: numbers, NaN, minus and plus infinity.
-/

namespace Mica

open Classical

variable {d : ℕ}

/-- A proposal whose likelihood is NaN or minus infinity is never accepted, nor is one whose `log_H`
is NaN: no particle changes, whatever its level and its own likelihood. -/
theorem C121_reject (L : (Fin d → ℝ) → Fl) (w : ℕ) (i : FUPIn d) (t t' : FTaskSt d)
    (hb : L i.proposal = .nan ∨ L i.proposal = .inf true ∨ i.logH = .nan)
    (h : fUpdateParticle L w i t = .ok t') : t'.particles = t.particles := by
  unfold fUpdateParticle at h
  obtain ⟨p, hp, h⟩ := Res.bind_eq_ok.1 h
  obtain ⟨lv, hlv, h⟩ := Res.bind_eq_ok.1 h
  obtain ⟨tie, _, h⟩ := Res.bind_eq_ok.1 h
  obtain ⟨ls, _, h⟩ := Res.bind_eq_ok.1 h
  have hacc : ¬ fAcceptUP lv i (L i.proposal) := by
    rintro ⟨h1, h2⟩
    rcases hb with hb | hb | hb
    · rw [hb] at h2
      revert h2; cases lv.logl.value <;> simp [Fl.lt]
    · rw [hb] at h2
      revert h2; cases lv.logl.value <;> simp [Fl.lt]
    · rw [hb] at h1
      simp [Fl.lt, Fl.exp, Fl.le] at h1
  rw [if_neg hacc] at h
  cases h
  have hp' := Res.get_eq_ok.1 hp
  exact set_same hp'

/-- A particle whose likelihood is NaN or minus infinity does not change its level. -/
theorem C121_stuck (o : SOpts) (m w : ℕ) (i : LAIn) (t t' : FTaskSt d) (p : FParticle d)
    (hp : t.particles[w]? = some p) (hb : p.logl.value = .nan ∨ p.logl.value = .inf true)
    (h : fUpdateLevelAssignment o m w i t = .ok t') : t' = t := by
  unfold fUpdateLevelAssignment at h
  obtain ⟨p', hp', h⟩ := Res.bind_eq_ok.1 h
  have : p' = p := by
    have := Res.get_eq_ok.1 hp'
    rw [hp] at this
    exact (Option.some.inj this).symm
  subst this
  obtain ⟨r, _, h⟩ := Res.bind_eq_ok.1 h
  obtain ⟨lp, _, h⟩ := Res.bind_eq_ok.1 h
  obtain ⟨lc, _, h⟩ := Res.bind_eq_ok.1 h
  obtain ⟨a, _, h⟩ := Res.bind_eq_ok.1 h
  obtain ⟨b, _, h⟩ := Res.bind_eq_ok.1 h
  obtain ⟨e, _, h⟩ := Res.bind_eq_ok.1 h
  rw [if_neg] at h
  · cases h; rfl
  · rintro ⟨_, h2⟩
    rcases hb with hb | hb
    · rw [hb] at h2
      revert h2; cases lp.logl.value <;> simp [Fl.lt]
    · rw [hb] at h2
      revert h2; cases lp.logl.value <;> simp [Fl.lt]

/-- A likelihood that can be NaN or minus infinity (not plus infinity): every state of every run is a
state of a run for the likelihood in which these values are replaced by the lowest double.  The level
table is the same, with real thresholds, log X and counters; the particles are at the same places in
the same levels; the same ones were saved. -/
theorem C121_run (o : SOpts) (L : (Fin d → ℝ) → Fl) (hL : NoInf L) (s : FSampler d)
    (h : FReachable o L s) :
    ∃ s', Reachable o (floorL L) s' ∧
      s.levels.map (fun l => (l.logl.value, l.logX, l.visits, l.exceeds, l.accepts, l.tries)) =
        s'.levels.map (fun l => (Fl.fin l.logl.value, l.logX, l.visits, l.exceeds, l.accepts, l.tries)) ∧
      s.tasks.map (·.map fun p => (p.params, p.level)) =
        s'.tasks.map (·.map fun p => (p.params, p.level)) ∧
      s.saved.map (fun p => (p.params, p.level)) = s'.saved.map (fun p => (p.params, p.level)) := by
  obtain ⟨s', hr, hs⟩ := freachable_rel hL h
  refine ⟨s', hr, ?_, prel_maps hs.tasks, prel_map hs.saved⟩
  rw [hs.levels, List.map_map]
  rfl

/-- Conversely, such a run is undefined, leaves the program or hangs only if the run for the replaced
likelihood does. -/
theorem C121_outcome (o : SOpts) (L : (Fin d → ℝ) → Fl) (hL : NoInf L) (tie : ℝ)
    (draws : List (List ((Fin d → ℝ) × ℝ))) (ins : List (FRoundIn d))
    (hi : ∀ i ∈ ins, FValidRound o i) :
    ∃ ins' : List (RoundIn d), ins'.length = ins.length ∧ (∀ i ∈ ins', ValidRound o i) ∧
      ((∃ s, fRun o L ins (fInitSampler o L tie draws) = .ok s) ↔
        ∃ s', run o (floorL L) ins' (initSampler o (floorL L) tie draws) = .ok s') ∧
      (fRun o L ins (fInitSampler o L tie draws) = .ub ↔
        run o (floorL L) ins' (initSampler o (floorL L) tie draws) = .ub) ∧
      (fRun o L ins (fInitSampler o L tie draws) = .exit ↔
        run o (floorL L) ins' (initSampler o (floorL L) tie draws) = .exit) := by
  refine ⟨ins.map FRoundIn.toR, by simp, fun i hi' => ?_, ?_⟩
  · obtain ⟨j, hj, rfl⟩ := List.mem_map.1 hi'
    exact toR_valid (hi j hj)
  · have hs := run_toF hL o ins (init_toF hL o tie draws)
    revert hs
    generalize fRun o L ins (fInitSampler o L tie draws) = r
    generalize run o (floorL L) (ins.map FRoundIn.toR) (initSampler o (floorL L) tie draws) = r'
    intro hs
    cases r <;> cases r' <;> first | exact hs.elim | simp

/-- All thresholds are numbers; the first is the lowest double, and they never decrease. -/
theorem C121_thresholds (o : SOpts) (L : (Fin d → ℝ) → Fl) (hL : NoInf L) (s : FSampler d)
    (h : FReachable o L s) :
    ∃ f : ℕ → ℝ, f 0 = -DBL_MAX ∧ (∀ i j, i ≤ j → j < s.levels.length → f i ≤ f j) ∧
      ∀ (i : ℕ) (l : FLevel), s.levels[i]? = some l → l.logl.value = .fin (f i) := by
  obtain ⟨s', hr, hs⟩ := freachable_rel hL h
  obtain ⟨⟨l0, hl0, hv0⟩, hmono⟩ := C05_thresholds o (floorL L) (floorL_bound hL) s' hr
  refine ⟨fun i => match s'.levels[i]? with | some l => l.logl.value | none => 0, ?_, ?_, ?_⟩
  · simp only [hl0, hv0]
  · intro i j hij hj
    rw [hs.levels, List.length_map] at hj
    have hi : i < s'.levels.length := by omega
    have e1 := List.getElem?_eq_getElem hi
    have e2 := List.getElem?_eq_getElem hj
    simp only [e1, e2]
    exact hmono i j _ _ hij e1 e2
  · intro i l hl
    rw [hs.levels, List.getElem?_map] at hl
    cases e : s'.levels[i]? with
    | none => rw [e] at hl; cases hl
    | some l' =>
      rw [e] at hl
      cases hl
      simp only [e]
      rfl

/-- What holds of every particle and of every saved one: its recorded likelihood is that of its
parameters; its level exists; and its likelihood is a number that reaches the threshold of its level,
or the particle is in the first level. -/
theorem C121_particles_partial (o : SOpts) (L : (Fin d → ℝ) → Fl) (hL : NoInf L) (s : FSampler d)
    (h : FReachable o L s) (p : FParticle d) (hp : p ∈ s.saved ∨ ∃ ps ∈ s.tasks, p ∈ ps) :
    p.logl.value = L p.params ∧
    ∃ l t, s.levels[p.level]? = some l ∧ l.logl.value = .fin t ∧
      ((∃ v, p.logl.value = .fin v ∧ t ≤ v) ∨
        (p.level = 0 ∧ (p.logl.value = .nan ∨ p.logl.value = .inf true))) := by
  obtain ⟨s', hr, hs⟩ := freachable_rel hL h
  obtain ⟨hpart, hsaved⟩ := C06_constraint o (floorL L) (floorL_bound hL) s' hr
  have mem : ∀ {ps : List (FParticle d)} {qs : List (Particle d)}, List.Forall₂ (PRel L) ps qs →
      p ∈ ps → ∃ q ∈ qs, PRel L p q := by
    intro ps qs h
    induction h with
    | nil => intro h; cases h
    | cons h _ ih =>
      intro hm
      rcases List.mem_cons.1 hm with rfl | hm
      · exact ⟨_, by simp, h⟩
      · obtain ⟨q, hq, hr⟩ := ih hm
        exact ⟨q, by simp [hq], hr⟩
  have mems : ∀ {pss : List (List (FParticle d))} {qss : List (List (Particle d))},
      List.Forall₂ (List.Forall₂ (PRel L)) pss qss →
      ∀ ps ∈ pss, ∃ qs ∈ qss, List.Forall₂ (PRel L) ps qs := by
    intro pss qss h
    induction h with
    | nil => intro ps h; cases h
    | cons h _ ih =>
      intro ps hm
      rcases List.mem_cons.1 hm with rfl | hm
      · exact ⟨_, by simp, h⟩
      · obtain ⟨q, hq, hr⟩ := ih ps hm
        exact ⟨q, by simp [hq], hr⟩
  have key : ∃ q, PRel L p q ∧ ∃ lv, s'.levels[q.level]? = some lv ∧ lv.logl.value ≤ q.logl.value := by
    rcases hp with hp | ⟨ps, hps, hp⟩
    · obtain ⟨q, hq, hpq⟩ := mem hs.saved hp
      exact ⟨q, hpq, hsaved q hq⟩
    · obtain ⟨qs, hqs, hpq⟩ := mems hs.tasks ps hps
      obtain ⟨q, hq, hpq⟩ := mem hpq hp
      exact ⟨q, hpq, hpart qs hqs q hq⟩
  obtain ⟨q, hpq, lv, hlv, hle⟩ := key
  refine ⟨hpq.cur, lv.toF, lv.logl.value, ?_, rfl, ?_⟩
  · rw [hs.levels, hpq.level, List.getElem?_map, hlv]; rfl
  · have hv := hpq.value
    rcases hpq.low with ⟨v, e⟩ | e
    · refine .inl ⟨v, e, ?_⟩
      rw [e] at hv
      cases hv
      exact hle
    · revert hv
      cases hpv : p.logl.value with
      | fin v => intro hv; cases hv; exact .inl ⟨_, rfl, hle⟩
      | nan => intro _; exact .inr ⟨e, .inl rfl⟩
      | inf b =>
        intro hv
        cases b with
        | true => exact .inr ⟨e, .inr rfl⟩
        | false => exact absurd hv (by rintro ⟨⟩)

/-- It is not true that every saved sample has a likelihood that is a number: a first particle whose
likelihood is NaN, or minus infinity, is kept and can be saved. -/
theorem C121_saved_fails :
    ∃ (o : SOpts) (w : Fl) (_ : w = .nan) (s : FSampler 1), NoInf (flL w) ∧ FReachable o (flL w) s ∧
      ∃ p ∈ s.saved, p.logl.value = .nan := by
  obtain ⟨s, hs, hv⟩ := fl_run_bad (w := .nan) (.inl rfl)
  exact ⟨exOpts, .nan, rfl, s, flL_noInf (.inl rfl),
    ⟨0, flDraws 7, [flRound], flDraws_valid 7, by simpa using flRound_valid, hs⟩, _,
    by rw [hv]; exact List.mem_singleton.2 rfl, rfl⟩

/-- One saved likelihood that is not a finite number is enough: the effective sample size is NaN, and
the conversion of it to the number of posterior samples is undefined. -/
theorem C121_evidence_fails (logp : List ℝ) (logl : List Fl) (hlen : logp.length = logl.length)
    (v : Fl) (hv : v ∈ logl) (hf : ∀ x, v ≠ .fin x) :
    ∃ z h lP, fEvidence logp logl = .ok (z, h, .nan, lP) ∧ fNumPs .nan = .ub := by
  obtain ⟨z, h, lP, e⟩ := ess_nan hlen hv (by
    cases v with
    | fin x => exact absurd rfl (hf x)
    | inf => exact id
    | nan => exact id)
  exact ⟨z, h, lP, e, rfl⟩

/-- When all are finite numbers, the evidence is that of the real model (C19 to C21). -/
theorem C121_evidence (logp logl : List ℝ) (z h e : ℝ) (lP : List ℝ)
    (hr : evidence logp logl = .ok (z, h, e, lP)) :
    fEvidence logp (logl.map .fin) = .ok (.fin z, .fin h, .fin e, lP.map .fin) := by
  rw [fEvidence_fin, hr]
  rfl

/-- Plus infinity is different: it is accepted, and can become the threshold of a level. -/
theorem C121_inf_threshold :
    ∃ (o : SOpts) (L : (Fin 1 → ℝ) → Fl) (s : FSampler 1), FReachable o L s ∧
      ∃ l ∈ s.levels, l.logl.value = .inf false := by
  obtain ⟨s, hs, hv⟩ := fl_run_inf
  refine ⟨exOpts, flL (.inf false), s,
    ⟨0, flDraws 1, [flRound], flDraws_valid 1, by simpa using flRound_valid, hs⟩, ?_⟩
  have : Fl.inf false ∈ s.levels.map (·.logl.value) := by rw [hv]; simp
  obtain ⟨l, hl, e⟩ := List.mem_map.1 this
  exact ⟨l, hl, e⟩

/-- A level with such a threshold is dead: no proposal is ever accepted in it, and no particle ever
moves into it. -/
theorem C121_inf_dead (L : (Fin d → ℝ) → Fl) (o : SOpts) (m w : ℕ) (t : FTaskSt d) (p : FParticle d)
    (l : FLevel) (hp : t.particles[w]? = some p) :
    (∀ (i : FUPIn d) (t' : FTaskSt d), t.levels[p.level]? = some l → l.logl.value = .inf false →
      fUpdateParticle L w i t = .ok t' → t'.particles = t.particles) ∧
    (∀ (i : LAIn) (t' : FTaskSt d) (p' : FParticle d), fUpdateLevelAssignment o m w i t = .ok t' →
      t'.particles[w]? = some p' → p'.level ≠ p.level → t.levels[p'.level]? = some l →
      l.logl.value ≠ .inf false) := by
  constructor
  · intro i t' hl hv h
    unfold fUpdateParticle at h
    obtain ⟨q, hq, h⟩ := Res.bind_eq_ok.1 h
    have : q = p := by
      have := Res.get_eq_ok.1 hq
      rw [hp] at this
      exact (Option.some.inj this).symm
    subst this
    obtain ⟨lv, hlv, h⟩ := Res.bind_eq_ok.1 h
    have : lv = l := by
      have := Res.get_eq_ok.1 hlv
      rw [hl] at this
      exact (Option.some.inj this).symm
    subst this
    obtain ⟨tie, _, h⟩ := Res.bind_eq_ok.1 h
    obtain ⟨ls, _, h⟩ := Res.bind_eq_ok.1 h
    have hacc : ¬ fAcceptUP lv i (L i.proposal) := by
      rintro ⟨_, h2⟩
      rw [hv] at h2
      revert h2; cases L i.proposal <;> simp [Fl.lt]
    rw [if_neg hacc] at h
    cases h
    exact set_same hp
  · intro i t' p' h hp' hne hl hv
    unfold fUpdateLevelAssignment at h
    obtain ⟨q, hq, h⟩ := Res.bind_eq_ok.1 h
    have : q = p := by
      have := Res.get_eq_ok.1 hq
      rw [hp] at this
      exact (Option.some.inj this).symm
    subst this
    obtain ⟨r, _, h⟩ := Res.bind_eq_ok.1 h
    obtain ⟨lp, hlp, h⟩ := Res.bind_eq_ok.1 h
    obtain ⟨lc, _, h⟩ := Res.bind_eq_ok.1 h
    obtain ⟨a, _, h⟩ := Res.bind_eq_ok.1 h
    obtain ⟨b, _, h⟩ := Res.bind_eq_ok.1 h
    obtain ⟨e, _, h⟩ := Res.bind_eq_ok.1 h
    have hw : w < t.particles.length := (List.getElem?_eq_some_iff.1 hp).1
    by_cases hc : i.uAcc ≤ Real.exp (fLevelLogA o e lc lp (a - b)) ∧ Fl.lt lp.logl.value q.logl.value
    · rw [if_pos hc] at h
      have hlev : p'.level = r.toNat := by
        split at h
        · obtain ⟨lim, _, h⟩ := Res.bind_eq_ok.1 h
          cases h
          rw [List.getElem?_set_self hw] at hp'
          cases hp'; rfl
        · cases h
          rw [List.getElem?_set_self hw] at hp'
          cases hp'; rfl
      rw [hlev] at hl
      have : lp = l := by
        have := Res.get_eq_ok.1 hlp
        rw [hl] at this
        exact (Option.some.inj this).symm
      subst this
      have h2 := hc.2
      rw [hv] at h2
      revert h2; cases q.logl.value <;> simp [Fl.lt]
    · rw [if_neg hc] at h
      cases h
      rw [hp] at hp'
      cases hp'
      exact hne rfl

/-! The hypotheses are met by the concrete runs of `Proof/SamplerFlExample.lean`. -/

example : ∃ s, NoInf (flL .nan) ∧ FReachable exOpts (flL .nan) s ∧ s.saved ≠ [] :=
  let ⟨s, hs, hv⟩ := fl_run_bad (w := .nan) (.inl rfl)
  ⟨s, flL_noInf (.inl rfl), ⟨0, flDraws 7, [flRound], flDraws_valid 7, by simpa using flRound_valid, hs⟩,
    by simp [hv]⟩

example : ∃ s, NoInf (flL (.inf true)) ∧ FReachable exOpts (flL (.inf true)) s ∧ s.saved ≠ [] :=
  let ⟨s, hs, hv⟩ := fl_run_bad (w := .inf true) (.inr rfl)
  ⟨s, flL_noInf (.inr rfl), ⟨0, flDraws 7, [flRound], flDraws_valid 7, by simpa using flRound_valid, hs⟩,
    by simp [hv]⟩

example (lims : List (Lim 1)) : ∃ t', fUpdateParticle (flL .nan) 0 ⟨fun _ => 7, .fin 0, 0, 0⟩
    ⟨[⟨fun _ => 7, ⟨.nan, 0⟩, 0⟩], [flLv0], lims, []⟩ = .ok t' := ⟨_, fl_up_bad (.inl rfl) lims⟩

example (lims : List (Lim 1)) : ∃ t', fUpdateLevelAssignment exOpts 2 0 ⟨1, 0, 0⟩
    ⟨[⟨fun _ => 7, ⟨.nan, 0⟩, 0⟩], [flLv0], lims, []⟩ = .ok t' :=
  ⟨_, fl_la _ rfl _ rfl (by simp [Fl.lt]) lims⟩

example : ([0, 0] : List ℝ).length = ([.fin 1, .inf true] : List Fl).length ∧
    Fl.inf true ∈ ([.fin 1, .inf true] : List Fl) := ⟨rfl, by simp⟩

end Mica
