import Verif.Props.TimeOrigin
import Mathlib.Logic.Equiv.Fintype

/-!
# C96: the order of the components of a transfer function does not matter

The components of a line are numbered only by their place in the parameter vector: exchanging the parameters of
two components (and their types, in a mixture) changes none of the likelihoods.
-/

namespace Mica

open Matrix

/-- `pm'` (with types `typ'`) is `pm` (with types `typ`) with the components of every line renumbered: component
`k` of line `j` is component `pi j k` of before.  `J` is the number of lines. -/
structure Relabelled (ng J : ℕ) (typ typ' : ℕ → TF) (pm pm' : ℕ → ℝ) (idxc : ℕ) (idxl : ℕ → ℕ)
    (pi : ℕ → Equiv.Perm (Fin ng)) : Prop where
  con : ∀ r < 3, pm' (idxc + r) = pm (idxc + r)
  sys : ∀ j < J, pm' (idxl j) = pm (idxl j)
  comp : ∀ j < J, ∀ k : Fin ng, ∀ r < 3, pm' (idxl j + 1 + 3 * k + r) = pm (idxl j + 1 + 3 * (pi j k : ℕ) + r)
  typ : ∀ j < J, ∀ k : Fin ng, typ' k = typ (pi j k)

variable {ng J : ℕ} {typ typ' : ℕ → TF} {pm pm' : ℕ → ℝ} {idxc : ℕ} {idxl : ℕ → ℕ} {pi : ℕ → Equiv.Perm (Fin ng)}

theorem Relabelled.taud (h : Relabelled ng J typ typ' pm pm' idxc idxl pi) (lin : Bool) :
    (KEnv.mk ng lin typ' pm' idxc idxl).taud = (KEnv.mk ng lin typ pm idxc idxl).taud := by
  simp only [KEnv.taud, h.con 2 (by omega)]

theorem Relabelled.comp_eq (h : Relabelled ng J typ typ' pm pm' idxc idxl pi) (lin : Bool) {j : ℕ} (hj : j < J)
    (k : Fin ng) : (KEnv.mk ng lin typ' pm' idxc idxl).comp j k = (KEnv.mk ng lin typ pm idxc idxl).comp j (pi j k) := by
  have h0 := h.comp j hj k 0 (by omega)
  have h1 := h.comp j hj k 1 (by omega)
  have h2 := h.comp j hj k 2 (by omega)
  rw [add_zero, add_zero] at h0
  simp only [KEnv.comp, compAt, h0, h1, h2]

theorem Relabelled.slc (h : Relabelled ng J typ typ' pm pm' idxc idxl pi) (lin : Bool) {j : ℕ} (hj : j < J) (t1 t2 : ℝ) :
    (KEnv.mk ng lin typ' pm' idxc idxl).slc t1 t2 j = (KEnv.mk ng lin typ pm idxc idxl).slc t1 t2 j := by
  rw [KEnv.slc, KEnv.slc, foldl_add_range, foldl_add_range, h.taud, Finset.sum_range, Finset.sum_range]
  congr 1
  refine Eq.trans (Finset.sum_congr rfl fun k _ => ?_)
    (Equiv.sum_comp (pi j) fun k : Fin ng => fpSlc (typ k) (KEnv.mk ng lin typ pm idxc idxl).taud
      ((KEnv.mk ng lin typ pm idxc idxl).comp j k) (t2 - t1))
  rw [h.comp_eq lin hj]
  show fpSlc (typ' k) _ _ _ = _
  rw [h.typ j hj k]

theorem Relabelled.sll2 (h : Relabelled ng J typ typ' pm pm' idxc idxl pi) (lin : Bool) {j l : ℕ} (hj : j < J)
    (hl : l < J) (t1 t2 : ℝ) :
    (KEnv.mk ng lin typ' pm' idxc idxl).sll2 t1 t2 j l = (KEnv.mk ng lin typ pm idxc idxl).sll2 t1 t2 j l := by
  rw [KEnv.sll2, KEnv.sll2, foldl_add_range2, foldl_add_range2, h.taud, Finset.sum_range, Finset.sum_range]
  congr 1
  refine Eq.trans (Finset.sum_congr rfl fun k _ => ?_)
    (Equiv.sum_comp (pi j) fun k : Fin ng => ∑ k' ∈ Finset.range ng,
      fpSll (typ k) (typ k') (KEnv.mk ng lin typ pm idxc idxl).taud
      ((KEnv.mk ng lin typ pm idxc idxl).comp j k) ((KEnv.mk ng lin typ pm idxc idxl).comp l k') (t1 - t2))
  show ∑ k' ∈ Finset.range ng, _ = _
  rw [Finset.sum_range, Finset.sum_range]
  refine Eq.trans (Finset.sum_congr rfl fun k' _ => ?_)
    (Equiv.sum_comp (pi l) fun k' : Fin ng => 
      fpSll (typ (pi j k)) (typ k') (KEnv.mk ng lin typ pm idxc idxl).taud
      ((KEnv.mk ng lin typ pm idxc idxl).comp j (pi j k)) ((KEnv.mk ng lin typ pm idxc idxl).comp l k') (t1 - t2))
  rw [h.comp_eq lin hj, h.comp_eq lin hl]
  show fpSll (typ' k) (typ' k') _ _ _ _ = _
  rw [h.typ j hj k, h.typ l hl k']

theorem Relabelled.sigCov (h : Relabelled ng J typ typ' pm pm' idxc idxl pi) (lin : Bool) (tau : ℝ) (d : DSet)
    (hd : d.line.length ≤ J) (x y : ℕ × ℕ) (hx : x.1 < d.series.length) (hy : y.1 < d.series.length) :
    sigCov (KEnv.mk ng lin typ' pm' idxc idxl).kernels tau d x y =
      Mica.sigCov (KEnv.mk ng lin typ pm idxc idxl).kernels tau d x y := by
  obtain ⟨s, i⟩ := x
  obtain ⟨s', i'⟩ := y
  simp only [DSet.series, List.length_cons] at hx hy
  rcases s with _ | s <;> rcases s' with _ | s' <;> simp only [Mica.sigCov, KEnv.kernels]
  · exact h.slc lin (by omega) _ _
  · exact h.slc lin (by omega) _ _
  · have hs : s < J := by omega
    have hs' : s' < J := by omega
    simp only [KEnv.sll_eq_sll2, h.sll2 lin hs hs, h.sll2 lin hs hs', h.sll2 lin hs' hs]

theorem Relabelled.covEntry (h : Relabelled ng J typ typ' pm pm' idxc idxl pi) (lin : Bool) (d : DSet)
    (hd : d.line.length ≤ J) (x y : ℕ × ℕ) (hx : x.1 < d.series.length) (hy : y.1 < d.series.length) :
    covEntry (KEnv.mk ng lin typ' pm' idxc idxl).kernels d pm' idxc idxl x y =
      Mica.covEntry (KEnv.mk ng lin typ pm idxc idxl).kernels d pm idxc idxl x y := by
  have h0 := h.con 0 (by omega)
  have h1 := h.con 1 (by omega)
  have h2 := h.con 2 (by omega)
  rw [add_zero] at h0
  have hsig : pmSigma pm' idxc = pmSigma pm idxc := by simp only [pmSigma, pmTau, h1, h2]
  have ht : pmTau pm' idxc = pmTau pm idxc := by simp only [pmTau, h2]
  have hn : noiseVar d pm' idxc idxl x = noiseVar d pm idxc idxl x := by
    obtain ⟨s, i⟩ := x
    simp only [DSet.series, List.length_cons] at hx
    rcases s with _ | s
    · simp only [noiseVar, hsig, pmSyserr, h0]
    · simp only [noiseVar, hsig, pmSyserr, h.sys s (by omega)]
  unfold Mica.covEntry
  rw [hn, ht, h.sigCov lin _ d hd x y hx hy]

theorem probLineLoop_eqOn {f g : ℕ → DSet → Res (Option ℝ)} (ds : List DSet) (k0 : ℕ) (z : ℝ)
    (h : ∀ (k : ℕ) d, ds[k]? = some d → f (k0 + k) d = g (k0 + k) d) : probLineLoop f ds k0 z = probLineLoop g ds k0 z := by
  induction ds generalizing k0 z with
  | nil => rfl
  | cons d ds ih =>
    have h0 := h 0 d (by simp)
    rw [add_zero] at h0
    rw [probLineLoop, probLineLoop, h0]
    congr 1
    funext r
    cases r with
    | none => rfl
    | some v =>
      exact ih (k0 + 1) _ fun k d' hd => by
        have := h (k + 1) d' (by simpa using hd)
        rwa [show k0 + (k + 1) = k0 + 1 + k by ring] at this

/-- C96: renumbering the components of the lines, in each line in its own way, changes none of the line
likelihoods: all data, all parameters, all mixtures of types that go with the numbering, whatever the outcome. -/
theorem C96_labels (nq ng : ℕ) (lin : Bool) (typ typ' : ℕ → TF) (pm pm' : ℕ → ℝ) (idxc : ℕ → ℕ) (idxl : ℕ → ℕ → ℕ)
    (mem mem' : ℕ → ℝ) (ds : List DSet) (pi : ℕ → ℕ → Equiv.Perm (Fin ng))
    (h : ∀ k d, ds[k]? = some d → Relabelled ng d.line.length typ typ' pm pm' (idxc k) (idxl k) (pi k)) :
    let e := tfEnv nq ng lin typ pm idxc idxl mem
    let e' := tfEnv nq ng lin typ' pm' idxc idxl mem'
    probLine1 e' ds = probLine1 e ds ∧ probLine2 e' ds = probLine2 e ds ∧ probLine3 e' ds = probLine3 e ds ∧
      probLine4 e' ds = probLine4 e ds := by
  intro e e'
  have hPC : ∀ (k : ℕ) d, ds[k]? = some d → e'.PC k d = e.PC k d := by
    intro k d hd
    rw [LineEnv.PC, LineEnv.PC, PCarr_eq, PCarr_eq]
    ext p q
    exact (h k d hd).covEntry lin d le_rfl _ _ (locate_series_lt _ _ p.2) (locate_series_lt _ _ q.2)
  have hs : ∀ (k : ℕ) d, ds[k]? = some d → pmSigma e'.pm (e'.idxc k) = pmSigma e.pm (e.idxc k) ∧
      pmTau e'.pm (e'.idxc k) = pmTau e.pm (e.idxc k) ∧
      ∀ em, pmSyserr e'.pm (e'.idxc k) em = pmSyserr e.pm (e.idxc k) em := by
    intro k d hd
    have h0 := (h k d hd).con 0 (by omega)
    have h1 := (h k d hd).con 1 (by omega)
    have h2 := (h k d hd).con 2 (by omega)
    rw [add_zero] at h0
    refine ⟨?_, ?_, fun em => ?_⟩
    · simp only [pmSigma, pmTau, e, e', tfEnv, h1, h2]
    · simp only [pmTau, e, e', tfEnv, h2]
    · simp only [pmSyserr, e, e', tfEnv, h0]
  refine ⟨probLineLoop_eqOn ds 0 0 ?_, probLineLoop_eqOn ds 0 0 ?_, probLineLoop_eqOn ds 0 0 ?_,
    probLineLoop_eqOn ds 0 0 ?_⟩
  · intro k d hd
    rw [zero_add, hPC k d hd, (hs k d hd).1]; rfl
  · intro k d hd
    rw [zero_add, hPC k d hd, (hs k d hd).1]; rfl
  · intro k d hd
    rw [zero_add, hPC k d hd, (hs k d hd).1]; rfl
  · intro k d hd
    rw [zero_add, hPC k d hd]
    simp only [lineTerm4, (hs k d hd).1, (hs k d hd).2.1, (hs k d hd).2.2]
    rfl

theorem vLoop_eqOn {f g : ℕ → List LC → Res (Option ℝ)} (ds : List (List LC)) (k0 : ℕ) (z : ℝ)
    (h : ∀ (k : ℕ) d, ds[k]? = some d → f (k0 + k) d = g (k0 + k) d) : vLoop f ds k0 z = vLoop g ds k0 z := by
  induction ds generalizing k0 z with
  | nil => rfl
  | cons d ds ih =>
    have h0 := h 0 d (by simp)
    rw [add_zero] at h0
    rw [vLoop, vLoop, h0]
    congr 1
    funext r
    cases r with
    | none => rfl
    | some v =>
      exact ih (k0 + 1) _ fun k d' hd => by
        have := h (k + 1) d' (by simpa using hd)
        rwa [show k0 + (k + 1) = k0 + 1 + k by ring] at this

/-- C96 for the mode without continuum. -/
theorem C96_labels_vmap (nq ng : ℕ) (lin : Bool) (typ typ' : ℕ → TF) (pm pm' : ℕ → ℝ) (idxc : ℕ → ℕ)
    (idxl : ℕ → ℕ → ℕ) (mem mem' : ℕ → ℝ) (ds : List (List LC)) (pi : ℕ → ℕ → Equiv.Perm (Fin ng))
    (h : ∀ k d, ds[k]? = some d → Relabelled ng d.length typ typ' pm pm' (idxc k) (idxl k) (pi k)) :
    let e := tfEnv nq ng lin typ pm idxc idxl mem
    let e' := tfEnv nq ng lin typ' pm' idxc idxl mem'
    probVmap3 e' ds = probVmap3 e ds ∧ probVmap4 e' ds = probVmap4 e ds := by
  intro e e'
  have hs : ∀ (k : ℕ) d, ds[k]? = some d → vSigma e'.pm (e'.idxc k) = vSigma e.pm (e.idxc k) := by
    intro k d hd
    have h1 := (h k d hd).con 1 (by omega)
    simp only [vSigma, e, e', tfEnv, h1]
  have hPC : ∀ (k : ℕ) d, ds[k]? = some d → vPC (e'.K k) e'.pm (e'.idxc k) (e'.idxl k) d e'.mem =
      vPC (e.K k) e.pm (e.idxc k) (e.idxl k) d e.mem := by
    intro k d hd
    have hk := h k d hd
    rw [vPC_eq, vPC_eq]
    ext p q
    have hp := locate_series_lt d p p.2
    have hq := locate_series_lt d q q.2
    have hn : noiseVar (vSet d) (vPm pm' (idxc k) (idxl k)) 0 (fun j => j + 3) ((locate d p).1 + 1, (locate d p).2) =
        noiseVar (vSet d) (vPm pm (idxc k) (idxl k)) 0 (fun j => j + 3) ((locate d p).1 + 1, (locate d p).2) := by
      simp only [noiseVar, vPm_sigma]
      simp only [vSigma, pmSyserr, vPm, hk.con 1 (by omega), hk.sys _ hp]
    show covEntry (KEnv.mk ng lin typ' pm' (idxc k) (idxl k)).kernels (vSet d) (vPm pm' (idxc k) (idxl k)) 0 _ _ _ =
      covEntry (KEnv.mk ng lin typ pm (idxc k) (idxl k)).kernels (vSet d) (vPm pm (idxc k) (idxl k)) 0 _ _ _
    unfold Mica.covEntry
    rw [hn, vPm_tau, vPm_tau, hk.con 2 (by omega), hk.sigCov lin _ (vSet d) le_rfl _ _
      (by simpa [DSet.series, vSet] using hp) (by simpa [DSet.series, vSet] using hq)]
  constructor
  · refine vLoop_eqOn ds 0 0 fun k d hd => ?_
    rw [zero_add, hPC k d hd, hs k d hd]; rfl
  · refine vLoop_eqOn ds 0 0 fun k d hd => ?_
    rw [zero_add, hPC k d hd, hs k d hd]; rfl

/-! ### Example: a Gaussian and an exponential component change places in the mixture -/

/-- Component 0 Gaussian at lag 7 with width 3, component 1 exponential at lag 20 with timescale 5, line parameters
from place 3; and the same two the other way round. -/
noncomputable def lab1 : ℕ → ℝ := fun i => [0, 0, 0, 0, 1, 7, 3, 2, 20, 5].getD i 0
@[inherit_doc lab1] noncomputable def lab2 : ℕ → ℝ := fun i => [0, 0, 0, 0, 2, 20, 5, 1, 7, 3].getD i 0

theorem lab_relabelled : Relabelled 2 1 (fun k => if k = 0 then .gauss else .exp) (fun k => if k = 0 then .exp else .gauss)
    lab1 lab2 0 (fun _ => 3) (fun _ => Equiv.swap 0 1) where
  con := by intro r hr; interval_cases r <;> simp [lab1, lab2]
  sys := by intro j _; simp [lab1, lab2]
  comp := by
    intro j _ k r hr
    fin_cases k <;> interval_cases r <;> simp [lab1, lab2]
  typ := by intro j _ k; fin_cases k <;> simp

example : probLine4 (tfEnv 1 2 true (fun k => if k = 0 then .exp else .gauss) lab2 (fun _ => 0) (fun _ _ => 3) fun _ => 0)
      [exSet] =
    probLine4 (tfEnv 1 2 true (fun k => if k = 0 then .gauss else .exp) lab1 (fun _ => 0) (fun _ _ => 3) fun _ => 0)
      [exSet] :=
  (C96_labels 1 2 true _ _ lab1 lab2 (fun _ => 0) (fun _ _ => 3) _ _ [exSet] (fun _ _ => Equiv.swap 0 1) (by
    intro k d hd
    rcases k with _ | k
    · obtain rfl : exSet = d := by simpa using hd
      exact lab_relabelled
    · simp at hd)).2.2.2

end Mica
