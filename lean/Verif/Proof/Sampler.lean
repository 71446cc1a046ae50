import Verif.Spec.Sampler
import Verif.Proof.Sort
import Mathlib.Data.List.Forall2
import Mathlib.Tactic.Linarith

/-!
# Invariants of the nested sampler: helper lemmas
-/

namespace Mica

/-- One level changed only by counting: `de ≤ dv`, `da ≤ dt`. -/
def LvStep (a b : Level) : Prop :=
  b.logl = a.logl ∧ b.logX = a.logX ∧ ∃ dv de da dt, b.visits = a.visits + dv ∧
    b.exceeds = a.exceeds + de ∧ b.accepts = a.accepts + da ∧ b.tries = a.tries + dt ∧
    de ≤ dv ∧ da ≤ dt

theorem LvStep.refl (a : Level) : LvStep a a := ⟨rfl, rfl, 0, 0, 0, 0, by simp⟩

theorem LvStep.trans {a b c : Level} (h1 : LvStep a b) (h2 : LvStep b c) : LvStep a c := by
  obtain ⟨e1, x1, v, e, ac, t, q1, q2, q3, q4, q5, q6⟩ := h1
  obtain ⟨e2, x2, v', e', ac', t', r1, r2, r3, r4, r5, r6⟩ := h2
  exact ⟨e2.trans e1, x2.trans x1, v + v', e + e', ac + ac', t + t',
    by omega, by omega, by omega, by omega, by omega, by omega⟩

abbrev LvSteps := List.Forall₂ LvStep

theorem LvSteps.refl (l : List Level) : LvSteps l l := by
  induction l with
  | nil => exact .nil
  | cons a l ih => exact .cons (LvStep.refl a) ih

theorem LvSteps.trans {a b c : List Level} (h1 : LvSteps a b) (h2 : LvSteps b c) :
    LvSteps a c := by
  induction h1 generalizing c with
  | nil => exact h2
  | cons h _ ih => cases h2 with | cons h' t' => exact .cons (h.trans h') (ih t')

theorem LvSteps.length {a b : List Level} (h : LvSteps a b) : b.length = a.length :=
  h.length_eq.symm

theorem LvSteps.set {l : List Level} {i : ℕ} {a b : Level} (h : l[i]? = some a)
    (hab : LvStep a b) : LvSteps l (l.set i b) := by
  induction l generalizing i with
  | nil => simp at h
  | cons c l ih =>
    cases i with
    | zero =>
      simp at h; subst h
      exact .cons hab (LvSteps.refl l)
    | succ i =>
      simp at h
      exact .cons (LvStep.refl c) (ih h)

theorem LvSteps.get {a b : List Level} (h : LvSteps a b) {i : ℕ} {x : Level}
    (hx : a[i]? = some x) : ∃ y, b[i]? = some y ∧ LvStep x y := by
  induction h generalizing i with
  | nil => simp at hx
  | cons h _ ih =>
    cases i with
    | zero => simp at hx; subst hx; exact ⟨_, rfl, h⟩
    | succ i => simp at hx; simpa using ih hx

theorem LvSteps.get' {a b : List Level} (h : LvSteps a b) {i : ℕ} {y : Level}
    (hy : b[i]? = some y) : ∃ x, a[i]? = some x ∧ LvStep x y := by
  induction h generalizing i with
  | nil => simp at hy
  | cons h _ ih =>
    cases i with
    | zero => simp at hy; subst hy; exact ⟨_, rfl, h⟩
    | succ i => simp at hy; simpa using ih hy

/-! ## visitLoop -/

theorem visitLoop_steps (v : ℝ) (n cur : ℕ) (ls ls' : List Level)
    (h : visitLoop v n cur ls = .ok ls') : LvSteps ls ls' := by
  induction n generalizing cur ls with
  | zero => simp only [visitLoop] at h; cases h; exact LvSteps.refl _
  | succ n ih =>
    simp only [visitLoop] at h
    obtain ⟨a, ha, h⟩ := Res.bind_eq_ok.1 h
    obtain ⟨b, hb, h⟩ := Res.bind_eq_ok.1 h
    have ha := Res.get_eq_ok.1 ha
    split at h
    · refine LvSteps.trans (LvSteps.set ha ?_) (ih _ _ h)
      exact ⟨rfl, rfl, 1, 1, 0, 0, by simp⟩
    · cases h
      exact LvSteps.set ha ⟨rfl, rfl, 1, 0, 0, 0, by simp⟩

/-! ## Task invariant -/

/-- Invariant of one task during the MCMC phase, relative to the level table at its start. -/
structure TInv {d : ℕ} (L : (Fin d → ℝ) → ℝ) (ls : List Level) (t : TaskSt d) : Prop where
  steps : LvSteps ls t.levels
  part : ∀ p ∈ t.particles, ParticleOK ls p ∧ LikelihoodCurrent L p
  above : ∀ a ∈ t.above, ∀ lv ∈ ls, lv.logl.value ≤ a.value

theorem particleOK_iff_of_steps {d : ℕ} {ls ls' : List Level} (h : LvSteps ls ls')
    (p : Particle d) : ParticleOK ls' p ↔ ParticleOK ls p := by
  constructor
  · rintro ⟨lv, h1, h2⟩
    obtain ⟨x, hx, hs⟩ := h.get' h1
    exact ⟨x, hx, by rw [← hs.1]; exact h2⟩
  · rintro ⟨lv, h1, h2⟩
    obtain ⟨x, hx, hs⟩ := h.get h1
    exact ⟨x, hx, by rw [hs.1]; exact h2⟩

open Classical in
theorem updateParticle_inv {d : ℕ} (L : (Fin d → ℝ) → ℝ) (ls : List Level) (w : ℕ) (i : UPIn d)
    (t t' : TaskSt d) (hi : TInv L ls t) (h : updateParticle L w i t = .ok t') :
    TInv L ls t' := by
  unfold updateParticle at h
  obtain ⟨p, hp, h⟩ := Res.bind_eq_ok.1 h
  obtain ⟨lv, hlv, h⟩ := Res.bind_eq_ok.1 h
  obtain ⟨tie, _, h⟩ := Res.bind_eq_ok.1 h
  obtain ⟨lv2, hlv2, h⟩ := Res.bind_eq_ok.1 h
  have hp := Res.get_eq_ok.1 hp
  have hlv := Res.get_eq_ok.1 hlv
  cases h
  have hpm : p ∈ t.particles := List.mem_of_getElem? hp
  constructor
  · refine LvSteps.trans hi.steps (LvSteps.trans (LvSteps.set hlv ?_) (visitLoop_steps _ _ _ _ _ hlv2))
    refine ⟨rfl, rfl, 0, 0, if acceptUP lv i (L i.proposal) then 1 else 0, 1, rfl, rfl, ?_, rfl,
      le_rfl, ?_⟩
    · dsimp only; split <;> simp
    · split <;> simp
  · intro q hq
    rcases List.mem_or_eq_of_mem_set hq with hq | hq
    · exact hi.part q hq
    · subst hq
      split
      · rename_i hacc
        refine ⟨(particleOK_iff_of_steps hi.steps _).1 ⟨lv, hlv, ?_⟩, rfl⟩
        exact le_of_lt hacc.2
      · exact hi.part p hpm
  · exact hi.above

theorem updateLevel_inv {d : ℕ} (o : SOpts) (m : ℕ) (L : (Fin d → ℝ) → ℝ) (ls : List Level)
    (w : ℕ) (i : LAIn) (t t' : TaskSt d) (hi : TInv L ls t)
    (h : updateLevelAssignment o m w i t = .ok t') : TInv L ls t' := by
  unfold updateLevelAssignment at h
  obtain ⟨p, hp, h⟩ := Res.bind_eq_ok.1 h
  obtain ⟨r, hr, h⟩ := Res.bind_eq_ok.1 h
  obtain ⟨lp, hlp, h⟩ := Res.bind_eq_ok.1 h
  obtain ⟨lc, hlc, h⟩ := Res.bind_eq_ok.1 h
  obtain ⟨a, _, h⟩ := Res.bind_eq_ok.1 h
  obtain ⟨b, _, h⟩ := Res.bind_eq_ok.1 h
  obtain ⟨e, _, h⟩ := Res.bind_eq_ok.1 h
  have hp := Res.get_eq_ok.1 hp
  have hlp := Res.get_eq_ok.1 hlp
  have hpm : p ∈ t.particles := List.mem_of_getElem? hp
  have key : ∀ (lim : List (Lim d)), lp.logl.value < p.logl.value →
      TInv L ls { t with particles := t.particles.set w { p with level := r.toNat }, limits := lim } := by
    intro lim hlt
    refine ⟨hi.steps, ?_, hi.above⟩
    intro q hq
    rcases List.mem_or_eq_of_mem_set hq with hq | hq
    · exact hi.part q hq
    · subst hq
      exact ⟨(particleOK_iff_of_steps hi.steps _).1 ⟨lp, hlp, le_of_lt hlt⟩, (hi.part p hpm).2⟩
  split at h
  · rename_i hacc
    split at h
    · obtain ⟨lim, _, h⟩ := Res.bind_eq_ok.1 h
      cases h
      exact key _ hacc.2
    · cases h
      exact key _ hacc.2
  · cases h; exact hi

theorem mcmcStep_inv {d : ℕ} (o : SOpts) (m : ℕ) (L : (Fin d → ℝ) → ℝ) (ls : List Level)
    (hls : ThresholdsOK ls) (i : StepIn d) (t t' : TaskSt d) (hi : TInv L ls t)
    (h : mcmcStep o L m i t = .ok t') : TInv L ls t' := by
  unfold mcmcStep at h
  obtain ⟨t1, h1, h⟩ := Res.bind_eq_ok.1 h
  have hi1 : TInv L ls t1 := by
    unfold mcmcMove at h1
    split at h1
    · obtain ⟨t2, h2, h3⟩ := Res.bind_eq_ok.1 h1
      exact updateLevel_inv o m L ls _ _ _ _ (updateParticle_inv L ls _ _ _ _ hi h2) h3
    · obtain ⟨t2, h2, h3⟩ := Res.bind_eq_ok.1 h1
      exact updateParticle_inv L ls _ _ _ _ (updateLevel_inv o m L ls _ _ _ _ hi h2) h3
  obtain ⟨e, _, h⟩ := Res.bind_eq_ok.1 h
  split at h
  · cases h; exact hi1
  · obtain ⟨last, hlast, h⟩ := Res.bind_eq_ok.1 h
    obtain ⟨p, hp, h⟩ := Res.bind_eq_ok.1 h
    have hlast := Res.get_eq_ok.1 hlast
    split at h
    · rename_i hlt
      split at h
      · cases h
        refine ⟨hi1.steps, hi1.part, ?_⟩
        intro a ha lv hlv
        rcases List.mem_append.1 ha with ha | ha
        · exact hi1.above a ha lv hlv
        · simp at ha; subst ha
          obtain ⟨x, hx, hs⟩ := hi1.steps.get' hlast
          obtain ⟨k, hk, hkl⟩ := List.mem_iff_getElem.1 hlv
          have hk' : ls[k]? = some lv := by rw [List.getElem?_eq_getElem hk, hkl]
          have hlen := hi1.steps.length
          have := hls.2 k (t1.levels.length - 1) lv x (by omega) hk' hx
          rw [← hs.1] at this
          linarith
      · cases h
    · cases h; exact hi1

theorem mcmcRun_inv {d : ℕ} (o : SOpts) (m : ℕ) (L : (Fin d → ℝ) → ℝ) (ls : List Level)
    (hls : ThresholdsOK ls) (is : List (StepIn d)) (t t' : TaskSt d) (hi : TInv L ls t)
    (h : mcmcRun o L m is t = .ok t') : TInv L ls t' := by
  induction is generalizing t with
  | nil => cases h; exact hi
  | cons i is ih =>
    simp only [mcmcRun] at h
    obtain ⟨t1, h1, h⟩ := Res.bind_eq_ok.1 h
    exact ih t1 (mcmcStep_inv o m L ls hls i t t1 hi h1) h

theorem runTasks_inv {d : ℕ} (o : SOpts) (L : (Fin d → ℝ) → ℝ) (ls : List Level)
    (hls : ThresholdsOK ls) (lim : List (Lim d)) (m : ℕ) (pss : List (List (Particle d)))
    (iss : List (List (StepIn d))) (ts : List (TaskSt d))
    (hp : ∀ ps ∈ pss, ∀ p ∈ ps, ParticleOK ls p ∧ LikelihoodCurrent L p)
    (h : runTasks o L ls lim m pss iss = .ok ts) : ∀ t ∈ ts, TInv L ls t := by
  induction pss generalizing m iss ts with
  | nil => simp only [runTasks] at h; cases h; simp
  | cons ps pss ih =>
    cases iss with
    | nil => simp [runTasks] at h
    | cons is iss =>
      simp only [runTasks] at h
      obtain ⟨t, ht, h⟩ := Res.bind_eq_ok.1 h
      obtain ⟨ts', hts, h⟩ := Res.bind_eq_ok.1 h
      cases h
      intro t' ht'
      rcases List.mem_cons.1 ht' with ht' | ht'
      · subst ht'
        refine mcmcRun_inv o m L ls hls is _ _ ?_ ht
        exact ⟨LvSteps.refl _, fun p hpm => hp ps (by simp) p hpm, by simp⟩
      · exact ih _ _ _ (fun q hq => hp q (by simp [hq])) hts t' ht'

/-! ## Merge -/

theorem addCounts_step {o c p : Level} (h : LvStep o p) : LvStep c (addCounts o c p) := by
  obtain ⟨_, _, dv, de, da, dt, h1, h2, h3, h4, h5, h6⟩ := h
  refine ⟨rfl, rfl, dv, de, da, dt, ?_, ?_, ?_, ?_, h5, h6⟩ <;> simp [addCounts] <;> omega

theorem addTask_steps {os cs ps : List Level} (h : LvSteps os ps) (hl : cs.length = os.length) :
    LvSteps cs (addTask os cs ps) := by
  induction h generalizing cs with
  | nil =>
    cases cs with
    | nil => exact .nil
    | cons => simp at hl
  | cons h _ ih =>
    cases cs with
    | nil => simp at hl
    | cons c cs => exact .cons (addCounts_step h) (ih (by simpa using hl))

theorem mergeLevels_steps (os : List Level) (pls : List (List Level)) (cs : List Level)
    (h : ∀ p ∈ pls, LvSteps os p) (hl : cs.length = os.length) :
    LvSteps cs (mergeLevels os pls cs) := by
  induction pls generalizing cs with
  | nil => exact LvSteps.refl _
  | cons p pls ih =>
    have h1 := addTask_steps (h p (by simp)) hl
    exact h1.trans (ih _ (fun q hq => h q (by simp [hq])) (by rw [h1.length, hl]))

/-! ## Bookkeeping -/

/-- `b` has the same thresholds as `a`. -/
abbrev SameLogl := List.Forall₂ (fun a b : Level => b.logl = a.logl)

theorem SameLogl.of_map {a b : List Level} (h : a.map (·.logl) = b.map (·.logl)) (i : ℕ) (y : Level)
    (hy : b[i]? = some y) : ∃ x, a[i]? = some x ∧ x.logl = y.logl := by
  have h1 : (b.map (·.logl))[i]? = some y.logl := by simp [hy]
  rw [← h] at h1
  simpa using h1

theorem thresholdsOK_of_map {a b : List Level} (h : a.map (·.logl) = b.map (·.logl))
    (ha : ThresholdsOK a) : ThresholdsOK b := by
  obtain ⟨⟨l0, h0, h0'⟩, hm⟩ := ha
  refine ⟨?_, ?_⟩
  · obtain ⟨x, hx, hx'⟩ := SameLogl.of_map h.symm 0 l0 h0
    exact ⟨x, hx, by rw [hx', h0']⟩
  · intro i j x y hij hx hy
    obtain ⟨x', hx', ex⟩ := SameLogl.of_map h i x hx
    obtain ⟨y', hy', ey⟩ := SameLogl.of_map h j y hy
    rw [← ex, ← ey]
    exact hm i j x' y' hij hx' hy'

theorem particleOK_of_map {d : ℕ} {a b : List Level} (h : a.map (·.logl) = b.map (·.logl))
    {p : Particle d} (hp : ParticleOK a p) : ParticleOK b p := by
  obtain ⟨lv, h1, h2⟩ := hp
  obtain ⟨x, hx, hx'⟩ := SameLogl.of_map h.symm _ lv h1
  exact ⟨x, hx, by rw [hx']; exact h2⟩

theorem LvSteps.map_logl {a b : List Level} (h : LvSteps a b) :
    a.map (·.logl) = b.map (·.logl) := by
  induction h with
  | nil => rfl
  | cons h _ ih => simp [ih, h.1]

theorem recalcFrom_map (o : SOpts) (prev : Level) (ls : List Level) :
    (recalcFrom o prev ls).map (·.logl) = ls.map (·.logl) := by
  induction ls generalizing prev with
  | nil => rfl
  | cons l ls ih => simp [recalcFrom, ih]

theorem recalcLogX_map (o : SOpts) (ls : List Level) :
    (recalcLogX o ls).map (·.logl) = ls.map (·.logl) := by
  cases ls with
  | nil => rfl
  | cons l ls => simp [recalcLogX, recalcFrom_map]

theorem recalcFrom_counts (o : SOpts) (prev : Level) (ls : List Level)
    (h : ∀ l ∈ ls, CountsOK l) : ∀ l ∈ recalcFrom o prev ls, CountsOK l := by
  induction ls generalizing prev with
  | nil => simp [recalcFrom]
  | cons l ls ih =>
    intro x hx
    simp only [recalcFrom] at hx
    rcases List.mem_cons.1 hx with hx | hx
    · subst hx; exact h l (by simp)
    · exact ih _ (fun y hy => h y (by simp [hy])) x hx

theorem recalcLogX_counts (o : SOpts) (ls : List Level)
    (h : ∀ l ∈ ls, CountsOK l) : ∀ l ∈ recalcLogX o ls, CountsOK l := by
  cases ls with
  | nil => simp [recalcLogX]
  | cons l ls =>
    intro x hx
    simp only [recalcLogX] at hx
    rcases List.mem_cons.1 hx with hx | hx
    · subst hx; exact h l (by simp)
    · exact recalcFrom_counts o _ ls (fun y hy => h y (by simp [hy])) x hx

theorem renorm_floor_le (a t reg : ℕ) (h : a ≤ t) :
    ⌊(((a + 1 : ℕ) : ℝ) / ((t + 1 : ℕ) : ℝ)) * reg⌋₊ ≤ reg := by
  have ht : (0 : ℝ) < ((t + 1 : ℕ) : ℝ) := by positivity
  have h1 : (((a + 1 : ℕ) : ℝ) / ((t + 1 : ℕ) : ℝ)) ≤ 1 := by
    rw [div_le_one ht]; exact_mod_cast Nat.succ_le_succ h
  have h2 : (((a + 1 : ℕ) : ℝ) / ((t + 1 : ℕ) : ℝ)) * reg ≤ (reg : ℝ) := by
    have : (0 : ℝ) ≤ reg := by positivity
    nlinarith
  exact_mod_cast Nat.floor_le_floor h2 |>.trans (by simp)

theorem renormLevel_counts (reg : ℕ) (l : Level) (h : CountsOK l) : CountsOK (renormLevel reg l) := by
  obtain ⟨h1, h2⟩ := h
  have := renorm_floor_le l.accepts l.tries reg h2
  have := renorm_floor_le l.exceeds l.visits reg h1
  unfold renormLevel CountsOK
  dsimp only
  split <;> split <;> simp_all

theorem renormLevel_logl (reg : ℕ) (l : Level) : (renormLevel reg l).logl = l.logl := by
  unfold renormLevel; dsimp only; split <;> split <;> rfl

/-! ### Level creation -/

theorem LogL.ge_value {a b : LogL} (h : a.ge b) : b.value ≤ a.value := by
  rcases h with h | h
  · exact h.le
  · exact h.1.le

theorem LogL.ge_trans (a b c : LogL) (h1 : a.ge b) (h2 : b.ge c) : a.ge c := by
  rcases h1 with h1 | h1 <;> rcases h2 with h2 | h2
  · left; linarith
  · left; linarith [h2.1]
  · left; linarith [h1.1]
  · right; exact ⟨by linarith [h1.1, h2.1], by linarith [h1.2, h2.2]⟩

theorem dnestCmp_ge (a b : LogL) (h : dnestCmp a b ≤ 0) : a.ge b := by
  unfold dnestCmp at h
  split at h
  · left; assumption
  · split at h
    · rename_i h2; right; exact ⟨h2.1.symm, h2.2.le⟩
    · simp at h

theorem dnestCmp_le (a b : LogL) (h : ¬ dnestCmp a b ≤ 0) : b.ge a := by
  unfold dnestCmp at h
  split at h
  · simp at h
  · rename_i h1
    split at h
    · simp at h
    · rename_i h2
      rcases lt_or_eq_of_le (not_lt.1 h1) with h3 | h3
      · left; exact h3
      · right; refine ⟨h3, ?_⟩
        by_contra h4
        exact h2 ⟨h3, by simpa using h4⟩

theorem dnestSort_sorted (l : List LogL) : (msortC dnestCmp l).Pairwise LogL.ge :=
  msortC_sorted _ _ LogL.ge_trans dnestCmp_ge dnestCmp_le l

theorem createLevel_spec (o : SOpts) (comb comb' : List Level) (above above' : List LogL)
    (h : createLevel o comb above = .ok (comb', above')) :
    ∃ v, v ∈ above ∧ comb' = comb ++ [(⟨v, 0, 0, 0, 0, 0⟩ : Level)] ∧
      above' = (msortC dnestCmp above).take ⌊(1 / o.compression) * (above.length : ℝ)⌋₊ ∧
      (msortC dnestCmp above)[⌊(1 / o.compression) * (above.length : ℝ)⌋₊]? = some v ∧
      (∀ a ∈ above', a.ge v) ∧ comb.length < o.levelCap := by
  unfold createLevel at h
  obtain ⟨v, hv, h⟩ := Res.bind_eq_ok.1 h
  have hv := Res.get_eq_ok.1 hv
  split at h
  · rename_i hcap
    cases h
    refine ⟨v, (msortC_perm _ _).mem_iff.1 (List.mem_of_getElem? hv), rfl, rfl, hv, ?_, hcap⟩
    intro a ha
    obtain ⟨k, hk, hka⟩ := List.mem_iff_getElem.1 ha
    have hk' : k < ⌊(1 / o.compression) * (above.length : ℝ)⌋₊ := by
      rw [List.length_take] at hk; omega
    have hi := (List.getElem?_eq_some_iff.1 hv)
    obtain ⟨hi, hiv⟩ := hi
    have := (List.pairwise_iff_getElem.1 (dnestSort_sorted above)) k _ (by omega) hi hk'
    rw [hiv] at this
    have e : a = (msortC dnestCmp above)[k]'(by omega) := by
      rw [← hka]; simp
    rw [e]; exact this
  · cases h

theorem thresholds_append {ls : List Level} {n : Level} (h : ThresholdsOK ls)
    (hn : ∀ lv ∈ ls, lv.logl.value ≤ n.logl.value) : ThresholdsOK (ls ++ [n]) := by
  obtain ⟨⟨l0, h0, h0'⟩, hm⟩ := h
  have hlen : 0 < ls.length := by
    rcases List.getElem?_eq_some_iff.1 h0 with ⟨h, _⟩; exact h
  refine ⟨⟨l0, by rw [List.getElem?_append_left hlen]; exact h0, h0'⟩, ?_⟩
  intro i j a b hij ha hb
  by_cases hj : j < ls.length
  · rw [List.getElem?_append_left (by omega)] at ha hb
    exact hm i j a b hij ha hb
  · have hjl := (List.getElem?_eq_some_iff.1 hb).1
    simp at hjl
    have hj' : j = ls.length := by omega
    subst hj'
    have : b = n := by simpa using hb.symm
    subst this
    by_cases hi : i < ls.length
    · rw [List.getElem?_append_left hi] at ha
      exact hn a (List.mem_of_getElem? ha)
    · have : i = ls.length := by omega
      subst this
      have : a = b := by simpa using ha.symm
      rw [this]

theorem particleOK_append {d : ℕ} {ls : List Level} {n : Level} {p : Particle d}
    (h : ParticleOK ls p) : ParticleOK (ls ++ [n]) p := by
  obtain ⟨lv, h1, h2⟩ := h
  refine ⟨lv, ?_, h2⟩
  rw [List.getElem?_append_left (List.getElem?_eq_some_iff.1 h1).1]; exact h1

/-! ### kill_lagging_particles -/

theorem killCopy_mem {d : ℕ} (o : SOpts) (m : ℕ) (ls : List Level) (good : List Bool) (mx : ℝ)
    (gs : List Bool) (i : ℕ) (at_ : List (List (ℕ × ℝ))) (ps ps' : List (Particle d))
    (h : killCopy o m ls good mx gs i at_ ps = .ok ps') : ∀ p ∈ ps', p ∈ ps := by
  induction gs generalizing i at_ ps with
  | nil => simp only [killCopy] at h; cases h; exact fun p hp => hp
  | cons g gs ih =>
    cases g with
    | true => simp only [killCopy] at h; exact ih _ _ _ h
    | false =>
      cases at_ with
      | nil => simp [killCopy] at h
      | cons a at_ =>
        simp only [killCopy] at h
        obtain ⟨c, hc, h⟩ := Res.bind_eq_ok.1 h
        obtain ⟨pc, hpc, h⟩ := Res.bind_eq_ok.1 h
        obtain ⟨ps1, hps1, h⟩ := Res.bind_eq_ok.1 h
        obtain ⟨_, rfl⟩ := Res.put_eq_ok.1 hps1
        intro p hp
        rcases List.mem_or_eq_of_mem_set (ih _ _ _ h p hp) with h1 | h1
        · exact h1
        · subst h1; exact List.mem_of_getElem? (Res.get_eq_ok.1 hpc)

theorem killLagging_mem {d : ℕ} (o : SOpts) (m : ℕ) (ls : List Level) (k : KillIn)
    (ps ps' : List (Particle d)) (h : killLagging o m ls k ps = .ok ps') : ∀ p ∈ ps', p ∈ ps := by
  unfold killLagging at h
  obtain ⟨⟨good, mx⟩, _, h⟩ := Res.bind_eq_ok.1 h
  dsimp only at h
  split at h
  · exact killCopy_mem _ _ _ _ _ _ _ _ _ _ h
  · cases h; exact fun p hp => hp

/-! ## The sampler invariant -/

/-- Invariant of the sampler between rounds. -/
structure SInv {d : ℕ} (L : (Fin d → ℝ) → ℝ) (s : Sampler d) : Prop where
  thr : ThresholdsOK s.levels
  part : ∀ ps ∈ s.tasks, ∀ p ∈ ps, ParticleOK s.levels p ∧ LikelihoodCurrent L p
  counts : ∀ l ∈ s.levels, CountsOK l
  above : ∀ a ∈ s.allAbove, ∀ lv ∈ s.levels, lv.logl.value ≤ a.value
  saved : ∀ p ∈ s.saved, ParticleOK s.levels p ∧ LikelihoodCurrent L p

theorem countsOK_steps {a b : List Level} (h : LvSteps a b) (ha : ∀ l ∈ a, CountsOK l) :
    ∀ l ∈ b, CountsOK l := by
  intro l hl
  obtain ⟨k, hk, hkl⟩ := List.mem_iff_getElem.1 hl
  obtain ⟨x, hx, hs⟩ := h.get' (i := k) (y := l) (by rw [List.getElem?_eq_getElem hk, hkl])
  have hc := ha x (List.mem_of_getElem? hx)
  obtain ⟨_, _, dv, de, da, dt, h1, h2, h3, h4, h5, h6⟩ := hs
  obtain ⟨c1, c2⟩ := hc
  exact ⟨by omega, by omega⟩

theorem mem_logl_of_map {a b : List Level} (h : a.map (·.logl) = b.map (·.logl)) {l : Level}
    (hl : l ∈ b) : ∃ x ∈ a, x.logl = l.logl := by
  have : l.logl ∈ b.map (·.logl) := List.mem_map_of_mem hl
  rw [← h] at this
  obtain ⟨x, hx, he⟩ := List.mem_map.1 this
  exact ⟨x, hx, he⟩

/-- What bookkeeping does to levels: old thresholds stay, at most one is appended. -/
theorem doBookkeeping_spec {d : ℕ} (o : SOpts) (m : ℕ) (comb rl : List Level) (above : List LogL)
    (root : List (Particle d)) (k : KillIn) (b : Book d)
    (h : doBookkeeping o m comb rl above root k = .ok b) :
    (b.levels.map (·.logl) = comb.map (·.logl) ∧ b.allAbove = above ∧ b.root = root ∧ b.maxLvRoot = m ∧
      b.levels = recalcLogX o comb) ∨
    (∃ v above', createLevel o comb above = .ok (comb ++ [(⟨v, 0, 0, 0, 0, 0⟩ : Level)], above') ∧
      enoughLevels o m comb = .ok false ∧ above.length ≥ o.newLevelInterval ∧
      b.levels.map (·.logl) = (comb ++ [(⟨v, 0, 0, 0, 0, 0⟩ : Level)]).map (·.logl) ∧ b.allAbove = above' ∧
      ((b.root = root ∧ b.maxLvRoot = comb.length + 1 ∧
          enoughLevels o m (comb ++ [(⟨v, 0, 0, 0, 0, 0⟩ : Level)]) = .ok true ∧
          b.levels = recalcLogX o
            ((comb ++ [(⟨v, 0, 0, 0, 0, 0⟩ : Level)]).map (renormLevel o.regularisation))) ∨
       (killLagging o m rl k root = .ok b.root ∧ b.maxLvRoot = m ∧
          enoughLevels o m (comb ++ [(⟨v, 0, 0, 0, 0, 0⟩ : Level)]) = .ok false ∧
          b.levels = recalcLogX o (comb ++ [(⟨v, 0, 0, 0, 0, 0⟩ : Level)])))) := by
  unfold doBookkeeping at h
  obtain ⟨e, he, h⟩ := Res.bind_eq_ok.1 h
  split at h
  · rename_i hcond
    obtain ⟨⟨comb', above'⟩, hc, h⟩ := Res.bind_eq_ok.1 h
    obtain ⟨v, _, rfl, _⟩ := createLevel_spec _ _ _ _ _ hc
    obtain ⟨e', he', h⟩ := Res.bind_eq_ok.1 h
    right
    have hef : e = false := by simpa using hcond.1
    subst hef
    refine ⟨v, above', hc, he, hcond.2, ?_⟩
    split at h
    · rename_i ht
      cases h
      have : e' = true := by simpa using ht
      subst this
      refine ⟨?_, rfl, .inl ⟨rfl, by simp, he', rfl⟩⟩
      rw [recalcLogX_map, List.map_map]
      congr 1
      funext l
      exact renormLevel_logl _ l
    · rename_i ht
      obtain ⟨root', hr, h⟩ := Res.bind_eq_ok.1 h
      cases h
      have : e' = false := by simpa using ht
      subst this
      exact ⟨recalcLogX_map _ _, rfl, .inr ⟨hr, rfl, he', rfl⟩⟩
  · cases h
    exact .inl ⟨recalcLogX_map _ _, rfl, rfl, rfl, rfl⟩

theorem gatherTasks_inv {d : ℕ} (o : SOpts) (L : (Fin d → ℝ) → ℝ) (s s' : Sampler d)
    (ts : List (TaskSt d)) (k : KillIn) (hi : SInv L s) (ht : ∀ t ∈ ts, TInv L s.levels t)
    (h : gatherTasks o s ts k = .ok s') : SInv L s' := by
  unfold gatherTasks at h
  dsimp only at h
  split at h
  · cases h
  · obtain ⟨root, hroot, h⟩ := Res.bind_eq_ok.1 h
    obtain ⟨b, hb, h⟩ := Res.bind_eq_ok.1 h
    have hroot := List.mem_of_getElem? (Res.get_eq_ok.1 hroot)
    cases h
    have hcomb : LvSteps s.levels (mergeLevels s.levels (ts.map (·.levels)) s.levels) := by
      refine mergeLevels_steps _ _ _ ?_ rfl
      intro p hp
      obtain ⟨t, htm, rfl⟩ := List.mem_map.1 hp
      exact (ht t htm).steps
    generalize mergeLevels s.levels (ts.map (·.levels)) s.levels = comb at hb hcomb
    have hthr : ThresholdsOK comb := thresholdsOK_of_map hcomb.map_logl hi.thr
    have hcnt : ∀ l ∈ comb, CountsOK l := countsOK_steps hcomb hi.counts
    have habove : ∀ a ∈ s.allAbove ++ (ts.map (·.above)).flatten, ∀ lv ∈ comb,
        lv.logl.value ≤ a.value := by
      intro a ha lv hlv
      obtain ⟨x, hx, hxe⟩ := mem_logl_of_map hcomb.map_logl hlv
      rw [← hxe]
      rcases List.mem_append.1 ha with ha | ha
      · exact hi.above a ha x hx
      · obtain ⟨l, hl, hal⟩ := List.mem_flatten.1 ha
        obtain ⟨t, htm, rfl⟩ := List.mem_map.1 hl
        exact (ht t htm).above a hal x hx
    have hpart : ∀ ps ∈ (root.particles :: ts.tail.map (·.particles)), ∀ p ∈ ps,
        ParticleOK comb p ∧ LikelihoodCurrent L p := by
      intro ps hps p hp
      have : ∃ t ∈ ts, p ∈ t.particles := by
        rcases List.mem_cons.1 hps with hps | hps
        · subst hps; exact ⟨root, hroot, hp⟩
        · obtain ⟨t, htm, rfl⟩ := List.mem_map.1 hps
          exact ⟨t, List.mem_of_mem_tail htm, hp⟩
      obtain ⟨t, htm, hp⟩ := this
      have := (ht t htm).part p hp
      exact ⟨(particleOK_iff_of_steps hcomb p).2 this.1, this.2⟩
    have hsaved : ∀ p ∈ s.saved, ParticleOK comb p ∧ LikelihoodCurrent L p := by
      intro p hp
      exact ⟨(particleOK_iff_of_steps hcomb p).2 (hi.saved p hp).1, (hi.saved p hp).2⟩
    rcases doBookkeeping_spec _ _ _ _ _ _ _ _ hb with
      ⟨hm, ha, hr, _, hlv⟩ | ⟨v, above', hc, _, _, hm, ha, hcase⟩
    · refine ⟨thresholdsOK_of_map hm.symm hthr, ?_, ?_, ?_, ?_⟩
      · intro ps hps p hp
        dsimp only at hps
        rw [hr] at hps
        have := hpart ps hps p hp
        exact ⟨particleOK_of_map hm.symm this.1, this.2⟩
      · dsimp only; rw [hlv]; exact recalcLogX_counts _ _ hcnt
      · dsimp only; rw [ha]
        intro a haa lv hlv'
        obtain ⟨x, hx, hxe⟩ := mem_logl_of_map hm.symm hlv'
        rw [← hxe]; exact habove a haa x hx
      · intro p hp
        exact ⟨particleOK_of_map hm.symm (hsaved p hp).1, (hsaved p hp).2⟩
    · obtain ⟨v', hv', hcc, habv, _, hge, _⟩ := createLevel_spec _ _ _ _ _ hc
      have hvv : v' = v := by simpa using hcc.symm
      subst hvv
      have hthr' : ThresholdsOK (comb ++ [⟨v', 0, 0, 0, 0, 0⟩]) :=
        thresholds_append hthr (fun lv hlv => habove v' hv' lv hlv)
      have hcnt' : ∀ l ∈ comb ++ [(⟨v', 0, 0, 0, 0, 0⟩ : Level)], CountsOK l := by
        intro l hl
        rcases List.mem_append.1 hl with hl | hl
        · exact hcnt l hl
        · simp at hl; subst hl; exact ⟨le_rfl, le_rfl⟩
      refine ⟨thresholdsOK_of_map hm.symm hthr', ?_, ?_, ?_, ?_⟩
      · intro ps hps p hp
        dsimp only at hps
        have : ParticleOK comb p ∧ LikelihoodCurrent L p := by
          rcases List.mem_cons.1 hps with hps | hps
          · subst hps
            refine hpart root.particles (by simp) p ?_
            rcases hcase with ⟨hr, _⟩ | ⟨hr, _⟩
            · rw [hr] at hp; exact hp
            · exact killLagging_mem _ _ _ _ _ _ hr p hp
          · exact hpart ps (List.mem_cons_of_mem _ hps) p hp
        exact ⟨particleOK_of_map hm.symm (particleOK_append this.1), this.2⟩
      · dsimp only
        rcases hcase with ⟨_, _, _, hl⟩ | ⟨_, _, _, hl⟩
        · rw [hl]
          refine recalcLogX_counts _ _ ?_
          intro l hl
          obtain ⟨x, hx, rfl⟩ := List.mem_map.1 hl
          exact renormLevel_counts _ _ (hcnt' x hx)
        · rw [hl]; exact recalcLogX_counts _ _ hcnt'
      · dsimp only; rw [ha]
        intro a haa lv hlv'
        obtain ⟨x, hx, hxe⟩ := mem_logl_of_map hm.symm hlv'
        rw [← hxe]
        rcases List.mem_append.1 hx with hx | hx
        · exact le_trans (habove v' hv' x hx) (LogL.ge_value (hge a haa))
        · simp at hx; subst hx; exact LogL.ge_value (hge a haa)
      · intro p hp
        exact ⟨particleOK_of_map hm.symm (particleOK_append (hsaved p hp).1), (hsaved p hp).2⟩

theorem saveStep_inv {d : ℕ} (o : SOpts) (L : (Fin d → ℝ) → ℝ) (i : RoundIn d) (s s' : Sampler d)
    (hi : SInv L s) (h : saveStep o i s = .ok s') : SInv L s' := by
  unfold saveStep at h
  split at h
  · obtain ⟨ps, hps, h⟩ := Res.bind_eq_ok.1 h
    obtain ⟨p, hp, h⟩ := Res.bind_eq_ok.1 h
    have hps := List.mem_of_getElem? (Res.get_eq_ok.1 hps)
    have hp := List.mem_of_getElem? (Res.get_eq_ok.1 hp)
    cases h
    refine ⟨hi.thr, hi.part, hi.counts, hi.above, ?_⟩
    intro q hq
    rcases List.mem_append.1 hq with hq | hq
    · exact hi.saved q hq
    · simp at hq; subst hq; exact hi.part ps hps q hp
  · cases h; exact hi

theorem round_inv {d : ℕ} (o : SOpts) (L : (Fin d → ℝ) → ℝ) (i : RoundIn d) (s s' : Sampler d)
    (hi : SInv L s) (h : round o L i s = .ok s') : SInv L s' := by
  unfold round at h
  obtain ⟨ts, hts, h⟩ := Res.bind_eq_ok.1 h
  obtain ⟨s1, hs1, h⟩ := Res.bind_eq_ok.1 h
  exact saveStep_inv o L i _ _ (gatherTasks_inv o L _ _ _ _ hi
    (runTasks_inv o L _ hi.thr _ _ _ _ _ hi.part hts) hs1) h

theorem run_inv {d : ℕ} (o : SOpts) (L : (Fin d → ℝ) → ℝ) (is : List (RoundIn d))
    (s s' : Sampler d) (hi : SInv L s) (h : run o L is s = .ok s') : SInv L s' := by
  induction is generalizing s with
  | nil => cases h; exact hi
  | cons i is ih =>
    simp only [run] at h
    split at h
    · cases h; exact hi
    · obtain ⟨s1, hs1, h⟩ := Res.bind_eq_ok.1 h
      exact ih s1 (round_inv o L i s s1 hi hs1) h

theorem init_inv {d : ℕ} (o : SOpts) (L : (Fin d → ℝ) → ℝ) (hL : ∀ x, -DBL_MAX ≤ L x) (tie : ℝ)
    (draws : List (List ((Fin d → ℝ) × ℝ))) : SInv L (initSampler o L tie draws) := by
  refine ⟨⟨⟨_, rfl, rfl⟩, ?_⟩, ?_, ?_, ?_, ?_⟩
  · intro i j a b hij ha hb
    have hj := (List.getElem?_eq_some_iff.1 hb).1
    simp [initSampler] at hj
    subst hj
    have : i = 0 := by omega
    subst this
    rw [ha] at hb; cases hb; exact le_rfl
  · intro ps hps p hp
    simp only [initSampler] at hps
    obtain ⟨l, _, rfl⟩ := List.mem_map.1 hps
    obtain ⟨x, _, rfl⟩ := List.mem_map.1 hp
    exact ⟨⟨_, rfl, hL _⟩, rfl⟩
  · intro l hl
    simp [initSampler] at hl
    subst hl; exact ⟨le_rfl, le_rfl⟩
  · simp [initSampler]
  · simp [initSampler]

theorem reachable_inv {d : ℕ} {o : SOpts} {L : (Fin d → ℝ) → ℝ} (hL : ∀ x, -DBL_MAX ≤ L x)
    {s : Sampler d} (h : Reachable o L s) : SInv L s := by
  obtain ⟨tie, draws, ins, _, _, h⟩ := h
  exact run_inv o L ins _ _ (init_inv o L hL tie draws) h

end Mica
