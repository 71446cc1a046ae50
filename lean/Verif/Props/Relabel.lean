import Verif.Proof.Relabel
import Verif.Props.Sampler
import Verif.Props.Postprocess

/-!
# C142: the sampler and the scale of likelihoods

The sampler uses likelihood values only by comparing them. A constant added to the log-likelihood, such as a missing
normalisation, is found again in the evidence and nowhere else.
-/

namespace Mica

variable {d : ℕ}

/-- Two states which differ in nothing but likelihood values, those of the first being `φ` of those of the second; the lowest
threshold is `-DBL_MAX` in both. -/
structure SameRun (φ : ℝ → ℝ) (s' s : Sampler d) : Prop where
  tasks : s'.tasks.map (·.map fun p => (p.params, p.level, p.logl.tie)) = s.tasks.map (·.map fun p => (p.params, p.level, p.logl.tie))
  taskValues : s'.tasks.map (·.map fun p => p.logl.value) = s.tasks.map (·.map fun p => φ p.logl.value)
  levels : s'.levels.map (fun l => (l.logl.tie, l.logX, l.visits, l.exceeds, l.accepts, l.tries)) =
    s.levels.map (fun l => (l.logl.tie, l.logX, l.visits, l.exceeds, l.accepts, l.tries))
  thresholds : ∃ vs, s.levels.map (·.logl.value) = -DBL_MAX :: vs ∧ s'.levels.map (·.logl.value) = -DBL_MAX :: vs.map φ
  limits : s'.limits = s.limits
  pooled : s'.allAbove.map (fun a => (a.value, a.tie)) = s.allAbove.map (fun a => (φ a.value, a.tie))
  maxLevels : s'.maxLvRoot = s.maxLvRoot
  steps : s'.countMcmc = s.countMcmc
  saves : s'.countSaves = s.countSaves
  saved : s'.saved.map (fun p => (p.params, p.level, p.logl.tie)) = s.saved.map (fun p => (p.params, p.level, p.logl.tie))
  savedValues : s'.saved.map (·.logl.value) = s.saved.map (fun p => φ p.logl.value)

/-- Two results of the same kind, with related states. -/
def SameOutcome (R : Sampler d → Sampler d → Prop) (r' r : Res (Sampler d)) : Prop :=
  (∀ s, r = .ok s → ∃ s', r' = .ok s' ∧ R s' s) ∧ (∀ s', r' = .ok s' → ∃ s, r = .ok s ∧ R s' s) ∧
    (r' = .exit ↔ r = .exit) ∧ (r' = .hang ↔ r = .hang) ∧ (r' = .ub ↔ r = .ub)

theorem SameOutcome.of_sim {R Q : Sampler d → Sampler d → Prop} {r' r : Res (Sampler d)} (h : Sim Q r' r)
    (hq : ∀ a b, Q a b → R a b) : SameOutcome R r' r := by
  cases r' <;> cases r <;> simp_all [Sim, SameOutcome]

/-- `φ` with the lowest threshold kept. -/
noncomputable def keepLow (φ : ℝ → ℝ) (x : ℝ) : ℝ := open Classical in if x = -DBL_MAX then -DBL_MAX else φ x

theorem sameRun_by {o : SOpts} {L : (Fin d → ℝ) → ℝ} (φ : ℝ → ℝ) (hL : ∀ x, -DBL_MAX < L x) {s : Sampler d} (h : SOK o L s) :
    SameRun φ (s.by (keepLow φ)) s := by
  have hr : ∀ v ∈ Set.range L, keepLow φ v = φ v := by
    rintro _ ⟨x, rfl⟩
    exact if_neg (hL x).ne'
  obtain ⟨vs, h1, h2⟩ := h.levels
  refine ⟨?_, ?_, ?_, ⟨vs, h1, ?_⟩, rfl, ?_, rfl, rfl, rfl, ?_, ?_⟩
  · simp only [Sampler.by, List.map_map]
    refine List.map_congr_left fun ps _ => ?_
    simp only [Function.comp, List.map_map]
    rfl
  · simp only [Sampler.by, List.map_map]
    refine List.map_congr_left fun ps hps => ?_
    simp only [Function.comp, List.map_map]
    exact List.map_congr_left fun p hp => hr _ (h.tasks ps hps p hp)
  · simp only [Sampler.by, List.map_map]
    rfl
  · have e : (s.by (keepLow φ)).levels.map (·.logl.value) = (s.levels.map (·.logl.value)).map (keepLow φ) := by
      simp only [Sampler.by, List.map_map]
      rfl
    rw [e, h1, List.map_cons]
    congr 1
    · exact if_pos rfl
    · exact List.map_congr_left fun v hv => hr v (h2 v hv)
  · simp only [Sampler.by, List.map_map]
    refine List.map_congr_left fun a ha => ?_
    simp only [Function.comp, LogL.by]
    rw [hr _ (h.above a ha)]
  · simp only [Sampler.by, List.map_map]
    rfl
  · simp only [Sampler.by, List.map_map]
    exact List.map_congr_left fun p hp => hr _ (h.saved p hp)

theorem keepLow_mono {L : (Fin d → ℝ) → ℝ} {φ : ℝ → ℝ} (hφ : StrictMonoOn φ (Set.range L)) (hL : ∀ x, -DBL_MAX < L x)
    (hL' : ∀ x, -DBL_MAX < φ (L x)) : StrictMonoOn (keepLow φ) (insert (-DBL_MAX) (Set.range L)) := by
  have e0 : keepLow φ (-DBL_MAX) = -DBL_MAX := if_pos rfl
  have hr : ∀ x, keepLow φ (L x) = φ (L x) := fun x => if_neg (hL x).ne'
  rintro _ (rfl | ⟨x, rfl⟩) _ (rfl | ⟨y, rfl⟩) hxy
  · exact absurd hxy (lt_irrefl _)
  · rw [e0, hr]; exact hL' y
  · exact absurd hxy (not_lt.2 (hL x).le)
  · rw [hr, hr]; exact hφ ⟨x, rfl⟩ ⟨y, rfl⟩ hxy

theorem run_same {o : SOpts} {L : (Fin d → ℝ) → ℝ} {φ : ℝ → ℝ} (hk : KeepsOrder o L (keepLow φ)) (hL : ∀ x, -DBL_MAX < L x)
    (tie : ℝ) (draws : List (List ((Fin d → ℝ) × ℝ))) (is : List (RoundIn d)) :
    Sim (fun a b => a = b.by (keepLow φ) ∧ SOK o L b) (run o (fun x => φ (L x)) is (initSampler o (fun x => φ (L x)) tie draws))
      (run o L is (initSampler o L tie draws)) := by
  have e : (fun x => φ (L x)) = fun x => keepLow φ (L x) := funext fun x => (if_neg (hL x).ne').symm
  obtain ⟨i1, i2⟩ := init_by hk tie draws
  rw [e, i1]
  exact run_by hk is i2

/-- **C142 (the order is all that matters).** With a given number of levels, the likelihood may be replaced by any increasing
function of it: with the same random numbers the run takes the same moves, creates levels at the same times with the same
prior masses, and saves the same parameters; only the likelihood values themselves are replaced. -/
theorem C142_order (o : SOpts) (hm : o.maxNumLevels ≠ 0) (L : (Fin d → ℝ) → ℝ) (φ : ℝ → ℝ) (hφ : StrictMonoOn φ (Set.range L))
    (hL : ∀ x, -DBL_MAX < L x) (hL' : ∀ x, -DBL_MAX < φ (L x)) (tie : ℝ) (draws : List (List ((Fin d → ℝ) × ℝ)))
    (is : List (RoundIn d)) :
    SameOutcome (SameRun φ) (run o (fun x => φ (L x)) is (initSampler o (fun x => φ (L x)) tie draws))
      (run o L is (initSampler o L tie draws)) := by
  have hk : KeepsOrder o L (keepLow φ) := ⟨keepLow_mono hφ hL hL', if_pos rfl, fun m ls hm0 _ => by
    have : m ≠ 0 := fun h => hm (hm0 h)
    unfold enoughLevels
    rw [if_neg this, if_neg this, List.length_map]⟩
  refine SameOutcome.of_sim (run_same hk hL tie draws is) ?_
  rintro _ b ⟨rfl, hb⟩
  exact sameRun_by φ hL hb

/-! ### A constant added -/

theorem scan_shift {L : (Fin d → ℝ) → ℝ} {k ε : ℝ} (h1 : ∀ x, ε ≤ L x + DBL_MAX) (h2 : ∀ x, ε ≤ L x + k + DBL_MAX)
    (hL : ∀ x, -DBL_MAX < L x) {ls : List Level} (hls : LvOK L ls) (n j kc : ℕ) (tot mx : ℝ) :
    Sim (fun a b => a = b ∨ (ε ≤ a.2.1 ∧ ε ≤ b.2.1)) (enoughScan (ls.map (Level.by (keepLow (· + k)))) n j kc tot mx)
      (enoughScan ls n j kc tot mx) := by
  obtain ⟨vs, hv, hr⟩ := hls
  have hlow : ∀ b : Level, ls[0]? = some b → b.logl.value = -DBL_MAX := by
    intro b hb
    have := congrArg (fun t : List ℝ => t[0]?) hv
    simp only [List.getElem?_map, hb, Option.map_some, List.getElem?_cons_zero, Option.some.injEq] at this
    exact this
  have hhigh : ∀ (i : ℕ) (b : Level), ls[i + 1]? = some b → ∃ x, b.logl.value = L x := by
    intro i b hb
    have := congrArg (fun t : List ℝ => t[i + 1]?) hv
    simp only [List.getElem?_map, hb, Option.map_some, List.getElem?_cons_succ] at this
    obtain ⟨x, hx⟩ := hr _ (List.mem_of_getElem? this.symm)
    exact ⟨x, hx.symm⟩
  have hup : ∀ x, keepLow (· + k) (L x) = L x + k := fun x => if_neg (hL x).ne'
  induction n generalizing j kc tot mx with
  | zero => exact .inl rfl
  | succ n ih =>
    cases j with
    | zero => simp [enoughScan, Sim]
    | succ j =>
      rw [enoughScan, enoughScan]
      refine (get_map' _ ls (j + 1)).bind fun a a' ha => ?_
      refine (get_map' _ ls j).bind fun b b' hb => ?_
      obtain ⟨rfl, ha⟩ := ha
      obtain ⟨rfl, hb⟩ := hb
      obtain ⟨x, hx⟩ := hhigh j a' ha
      have ea : (a'.by (keepLow (· + k))).logl.value = L x + k := by
        show keepLow (· + k) a'.logl.value = L x + k
        rw [hx, hup]
      cases j with
      | zero =>
        have eb' := hlow b' hb
        have eb : (b'.by (keepLow (· + k))).logl.value = -DBL_MAX := by
          show keepLow (· + k) b'.logl.value = -DBL_MAX
          rw [eb']; exact if_pos rfl
        rw [if_pos zero_lt_one, if_pos zero_lt_one, ea, eb, hx, eb', sub_neg_eq_add, sub_neg_eq_add]
        refine .inr ⟨?_, ?_⟩
        · show ε ≤ if _ then _ else _
          split
          · exact h2 x
          · rename_i h; exact le_trans (h2 x) (not_lt.1 h)
        · show ε ≤ if _ then _ else _
          split
          · exact h1 x
          · rename_i h; exact le_trans (h1 x) (not_lt.1 h)
      | succ j =>
        obtain ⟨y, hy⟩ := hhigh j b' hb
        have eb : (b'.by (keepLow (· + k))).logl.value = L y + k := by
          show keepLow (· + k) b'.logl.value = L y + k
          rw [hy, hup]
        have hj : ¬ (j + 1 < 1) := by omega
        rw [if_neg hj, if_neg hj, ea, eb, hx, hy, add_sub_add_right_eq_sub]
        exact ih _ _ _ _

theorem keeps_shift {o : SOpts} {L : (Fin d → ℝ) → ℝ} {k : ℝ} (h1 : ∀ x, o.ptol * 1.1 ≤ L x + DBL_MAX)
    (h2 : ∀ x, o.ptol * 1.1 ≤ L x + k + DBL_MAX) (hL : ∀ x, -DBL_MAX < L x) (hL' : ∀ x, -DBL_MAX < L x + k) :
    KeepsOrder o L (keepLow (· + k)) := by
  refine ⟨keepLow_mono (fun x _ y _ h => by simpa using h) hL hL', if_pos rfl, fun m ls _ hls => ?_⟩
  unfold enoughLevels
  rw [List.length_map]
  split
  · split
    · rfl
    · split
      · rfl
      · have hs := scan_shift h1 h2 hL hls (numToCheck ls.length) (ls.length - 1) 0 0 (-DBL_MAX)
        revert hs
        generalize enoughScan (ls.map (Level.by (keepLow (· + k)))) (numToCheck ls.length) (ls.length - 1) 0 0 (-DBL_MAX) = p
        generalize enoughScan ls (numToCheck ls.length) (ls.length - 1) 0 0 (-DBL_MAX) = q
        intro hs
        cases p <;> cases q <;> simp only [Sim] at hs <;> try rfl
        rename_i a b
        rcases hs with rfl | ⟨ha, hb⟩
        · rfl
        · show Res.ok (decide _) = Res.ok (decide _)
          rw [decide_eq_false (fun h => absurd h.2 (not_lt.2 ha)), decide_eq_false (fun h => absurd h.2 (not_lt.2 hb))]
  · rfl

/-- The levels as the postprocess reads them. -/
def Sampler.postLevels (s : Sampler d) : List PLevel := s.levels.map fun l => ⟨l.logX, l.logl.value⟩
/-- The saved samples as the postprocess reads them. -/
def Sampler.postInfo (s : Sampler d) : List PInfo := s.saved.map fun p => ⟨p.level, p.logl.value, p.logl.tie⟩

/-- The lowest threshold does not matter as long as it is below all samples. -/
theorem massArrays_low (x a b : ℝ) (rest : List PLevel) (info : List PInfo) (ha : ∀ p ∈ info, a < p.logl)
    (hb : ∀ p ∈ info, b < p.logl) : massArrays (⟨x, a⟩ :: rest) info = massArrays (⟨x, b⟩ :: rest) info := by
  have hsw : info.map (sandwich (⟨x, a⟩ :: rest)) = info.map (sandwich (⟨x, b⟩ :: rest)) := by
    refine List.map_congr_left fun p hp => ?_
    unfold sandwich
    cases e : p.level with
    | zero => simp only [List.drop_zero, sandwichGo, gt_iff_lt, ha p hp, hb p hp, if_true]
    | succ n => rfl
  have hlow : ∀ i, lowerX (⟨x, a⟩ :: rest) i = lowerX (⟨x, b⟩ :: rest) i := fun i => by
    unfold lowerX
    simp only [List.length_cons, List.getElem?_cons_succ]
  have hws : ∀ sw, allWrites (⟨x, a⟩ :: rest) info sw = allWrites (⟨x, b⟩ :: rest) info sw := fun sw => by
    unfold allWrites levelWrites
    simp only [hlow, List.zipIdx_cons, List.flatMap_cons]
  unfold massArrays
  simp only [hsw, hws]

theorem postprocess_low {α : Type} (T x a b : ℝ) (rest : List PLevel) (info : List PInfo) (samples : List α)
    (draws : List (ℕ × ℝ)) (ha : ∀ p ∈ info, a < p.logl) (hb : ∀ p ∈ info, b < p.logl) :
    postprocess T (⟨x, a⟩ :: rest) info samples draws = postprocess T (⟨x, b⟩ :: rest) info samples draws := by
  unfold postprocess
  rw [massArrays_low x a b rest info ha hb]

/-- **C142 (a constant added).** Adding a constant to the log-likelihood, also with an automatic number of levels, leads to
the same moves, the same levels with the same prior masses, and the same saved parameters; every likelihood value is larger
by the constant. The postprocess then finds an evidence larger by the constant divided by the temperature, the same
information, effective sample size, weights and posterior sample.
Only likelihoods within the tolerance of `-DBL_MAX` are excluded. -/
theorem C142_shift (o : SOpts) (L : (Fin d → ℝ) → ℝ) (k : ℝ) (h1 : ∀ x, o.ptol * 1.1 ≤ L x + DBL_MAX)
    (h2 : ∀ x, o.ptol * 1.1 ≤ L x + k + DBL_MAX) (hL : ∀ x, -DBL_MAX < L x) (hL' : ∀ x, -DBL_MAX < L x + k) (tie : ℝ)
    (draws : List (List ((Fin d → ℝ) × ℝ))) (is : List (RoundIn d)) :
    SameOutcome (fun s' s => SameRun (· + k) s' s ∧
        ∀ (α : Type) (T : ℝ) (samples : List α) (picks : List (ℕ × ℝ)) (out : PostOut α),
          postprocess T s.postLevels s.postInfo samples picks = .ok out →
          ∃ out', postprocess T s'.postLevels s'.postInfo samples picks = .ok out' ∧
            out'.logz = out.logz + k / T ∧ out'.info = out.info ∧ out'.ess = out.ess ∧ out'.post = out.post ∧
            out'.postInfo = out.postInfo.map (· + k / T) ∧
            out'.weights = out.weights.map (fun w => (w.1, w.2.1 + k, w.2.2)))
      (run o (fun x => L x + k) is (initSampler o (fun x => L x + k) tie draws)) (run o L is (initSampler o L tie draws)) := by
  refine SameOutcome.of_sim (run_same (keeps_shift h1 h2 hL hL') hL tie draws is) ?_
  rintro _ s ⟨rfl, hs⟩
  refine ⟨sameRun_by _ hL hs, fun α T samples picks out ho => ?_⟩
  obtain ⟨out', h', r⟩ := C20_shift T k _ _ samples picks out ho
  refine ⟨out', ?_, r⟩
  rw [← h']
  have hr : ∀ v ∈ Set.range L, keepLow (· + k) v = v + k := by
    rintro _ ⟨x, rfl⟩
    exact if_neg (hL x).ne'
  have ei : (s.by (keepLow (· + k))).postInfo = s.postInfo.map fun p => { p with logl := p.logl + k } := by
    simp only [Sampler.postInfo, Sampler.by, List.map_map]
    refine List.map_congr_left fun p hp => ?_
    simp only [Function.comp, Particle.by, LogL.by]
    rw [hr _ (hs.saved p hp)]
  obtain ⟨vs, e1, e2⟩ := hs.levels
  obtain ⟨l0, rest, el⟩ : ∃ l0 rest, s.levels = l0 :: rest := by
    cases h : s.levels with
    | nil => rw [h] at e1; cases e1
    | cons a b => exact ⟨a, b, rfl⟩
  rw [el, List.map_cons, List.cons.injEq] at e1
  have el' : (s.by (keepLow (· + k))).postLevels =
      ⟨l0.logX, -DBL_MAX⟩ :: rest.map fun l => (⟨l.logX, l.logl.value + k⟩ : PLevel) := by
    simp only [Sampler.postLevels, Sampler.by, List.map_map, el, List.map_cons]
    congr 1
    · simp only [Level.by, LogL.by, e1.1]
      congr 1
      exact if_pos rfl
    · refine List.map_congr_left fun l hl => ?_
      simp only [Function.comp, Level.by, LogL.by]
      congr 1
      refine hr _ (e2 _ ?_)
      rw [← e1.2]
      exact List.mem_map.2 ⟨l, hl, rfl⟩
  have el2 : (s.postLevels.map fun l => { l with logl := l.logl + k }) =
      ⟨l0.logX, -DBL_MAX + k⟩ :: rest.map fun l => (⟨l.logX, l.logl.value + k⟩ : PLevel) := by
    simp only [Sampler.postLevels, List.map_map, el, List.map_cons]
    congr 1
    simp only [e1.1]
  rw [ei, el', el2]
  refine postprocess_low T _ _ _ _ _ samples picks ?_ ?_
  · intro p hp
    obtain ⟨q, hq, rfl⟩ := List.mem_map.1 hp
    obtain ⟨r, hr', rfl⟩ := List.mem_map.1 hq
    obtain ⟨x, hx⟩ := hs.saved r hr'
    show -DBL_MAX < r.logl.value + k
    rw [← hx]; exact hL' x
  · intro p hp
    obtain ⟨q, hq, rfl⟩ := List.mem_map.1 hp
    obtain ⟨r, hr', rfl⟩ := List.mem_map.1 hq
    obtain ⟨x, hx⟩ := hs.saved r hr'
    show -DBL_MAX + k < r.logl.value + k
    have := hL x
    rw [← hx]; linarith

theorem DBL_MAX_hundred : (100 : ℝ) ≤ DBL_MAX := by
  unfold DBL_MAX
  calc (100 : ℝ) ≤ (2 ^ 53 - 1) * 1 := by norm_num
    _ ≤ (2 ^ 53 - 1) * 2 ^ 971 := mul_le_mul_of_nonneg_left (one_le_pow₀ (by norm_num)) (by norm_num)

/-- The exponential of the likelihood instead of its logarithm: the example run creates the same level and saves the same
parameter. -/
example : ∃ s s', run exOpts exL [exRound] (initSampler exOpts exL 0 exDraws) = .ok s ∧
    run exOpts (fun x => Real.exp (exL x)) [exRound] (initSampler exOpts (fun x => Real.exp (exL x)) 0 exDraws) = .ok s' ∧
    SameRun Real.exp s' s ∧ s.levels.length = 2 ∧ s.saved.length = 1 := by
  have hb : ∀ x, -DBL_MAX < exL x := fun x => by
    have h5 : (-5 : ℝ) ≤ exL x := le_max_right _ _
    have := DBL_MAX_hundred
    linarith
  have he : ∀ x, -DBL_MAX < Real.exp (exL x) := fun x => by
    have := DBL_MAX_hundred
    have := Real.exp_pos (exL x)
    linarith
  obtain ⟨s, hs, h1, h2⟩ := ex_run
  obtain ⟨s', hs', h⟩ := (C142_order exOpts (by decide) exL Real.exp (Real.exp_strictMono.strictMonoOn _) hb he 0 exDraws
    [exRound]).1 s hs
  exact ⟨s, s', hs, hs', h, by simpa using congrArg List.length h1, by rw [h2]; rfl⟩

/-- A constant of 7 added in the same run. -/
example : ∃ s s', run exOpts exL [exRound] (initSampler exOpts exL 0 exDraws) = .ok s ∧
    run exOpts (fun x => exL x + 7) [exRound] (initSampler exOpts (fun x => exL x + 7) 0 exDraws) = .ok s' ∧
    s'.saved.map (·.logl.value) = [3 + 7] ∧ s'.levels.map (·.logl.value) = [-DBL_MAX, 3 + 7] := by
  have h5 : ∀ x, (-5 : ℝ) ≤ exL x := fun x => le_max_right _ _
  have hD := DBL_MAX_hundred
  have hp : exOpts.ptol = 0.1 := rfl
  obtain ⟨s, hs, h1, h2⟩ := ex_run
  obtain ⟨s', hs', h, -⟩ := (C142_shift exOpts exL 7 (fun x => by have := h5 x; rw [hp]; norm_num; linarith)
    (fun x => by have := h5 x; rw [hp]; norm_num; linarith) (fun x => by have := h5 x; linarith)
    (fun x => by have := h5 x; linarith) 0 exDraws [exRound]).1 s hs
  refine ⟨s, s', hs, hs', ?_, ?_⟩
  · rw [h.savedValues, h2]; rfl
  · obtain ⟨vs, e1, e2⟩ := h.thresholds
    have : s.levels.map (·.logl.value) = [-DBL_MAX, 3] := by
      have := congrArg (List.map LogL.value) h1
      rw [List.map_map] at this
      exact this
    rw [this] at e1
    cases e1
    exact e2

end Mica
