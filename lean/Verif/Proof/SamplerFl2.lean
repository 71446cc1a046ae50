import Verif.Proof.SamplerFl
import Verif.Spec.SamplerFl

/-! Helper lemmas: runs with likelihoods that are not numbers. -/

namespace Mica

variable {d : ℕ}

theorem set_same {α : Type} {l : List α} {i : ℕ} {a : α} (h : l[i]? = some a) : l.set i a = l := by
  obtain ⟨hi, rfl⟩ := List.getElem?_eq_some_iff.1 h
  exact List.set_getElem_self hi

theorem toR_valid {o : SOpts} {i : FRoundIn d} (h : FValidRound o i) : ValidRound o i.toR where
  nTasks := by simpa [FRoundIn.toR] using h.nTasks
  nSteps := by
    intro l hl
    obtain ⟨l', hl', rfl⟩ := List.mem_map.1 hl
    simpa using h.nSteps l' hl'
  which := by
    intro l hl st hst
    obtain ⟨l', hl', rfl⟩ := List.mem_map.1 hl
    obtain ⟨st', hst', rfl⟩ := List.mem_map.1 hst
    exact h.which l' hl' st' hst'
  killU := h.killU
  killC := h.killC
  saveTask := h.saveTask
  saveParticle := h.saveParticle

theorem floorL_bound {L : (Fin d → ℝ) → Fl} (hL : NoInf L) (x : Fin d → ℝ) : -DBL_MAX ≤ floorL L x :=
  (hL.rel x).ge

theorem freachable_rel {o : SOpts} {L : (Fin d → ℝ) → Fl} (hL : NoInf L) {s : FSampler d}
    (h : FReachable o L s) : ∃ s', Reachable o (floorL L) s' ∧ SRel L s s' := by
  obtain ⟨tie, draws, ins, hd, hi, hr⟩ := h
  have hs := run_toF hL o ins (init_toF hL o tie draws)
  rw [hr] at hs
  cases hr' : run o (floorL L) (ins.map FRoundIn.toR) (initSampler o (floorL L) tie draws) with
  | ok s' =>
    rw [hr'] at hs
    refine ⟨s', ⟨tie, draws, _, hd, fun i hi' => ?_, hr'⟩, hs⟩
    obtain ⟨j, hj, rfl⟩ := List.mem_map.1 hi'
    exact toR_valid (hi j hj)
  | exit => rw [hr'] at hs; exact hs.elim
  | ub => rw [hr'] at hs; exact hs.elim
  | hang => rw [hr'] at hs; exact hs.elim

theorem prel_map {L : (Fin d → ℝ) → Fl} {ps : List (FParticle d)} {qs : List (Particle d)}
    (h : List.Forall₂ (PRel L) ps qs) :
    ps.map (fun p => (p.params, p.level)) = qs.map (fun q => (q.params, q.level)) := by
  induction h with
  | nil => rfl
  | cons h _ ih => simp [h.params, h.level, ih]

theorem prel_maps {L : (Fin d → ℝ) → Fl} {ps : List (List (FParticle d))} {qs : List (List (Particle d))}
    (h : List.Forall₂ (List.Forall₂ (PRel L)) ps qs) :
    ps.map (·.map fun p => (p.params, p.level)) = qs.map (·.map fun q => (q.params, q.level)) := by
  induction h with
  | nil => rfl
  | cons h _ ih => rw [List.map_cons, List.map_cons, prel_map h, ih]

end Mica
