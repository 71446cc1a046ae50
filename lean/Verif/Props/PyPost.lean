import Verif.Proof.PyPost
import Verif.Props.Postprocess

/-!
# C115: post-processing in Python gives the numbers of the C program
-/

namespace Mica

theorem clampInfo_lt {n : ℕ} (hn : 0 < n) (p : PInfo) : (clampInfo n p).level < n := by
  unfold clampInfo
  split
  · show n - 1 < n; omega
  · omega

theorem clampInfo_logl (n : ℕ) (p : PInfo) : (clampInfo n p).logl = p.logl := by
  unfold clampInfo
  split <;> rfl

/-- The value that `pyPost` gives when the prior masses are those of the C program. -/
theorem pyPost_eq (T : ℝ) (levels : List PyLevel) (raw : List PInfo) (hl : 2 ≤ levels.length) (hr : 2 ≤ raw.length)
    {logp : List ℝ} (hlen : logp.length = raw.length)
    (hcell : ((List.range (raw.map (clampInfo levels.length)).length).mapM fun (j : ℕ) =>
      pyCell levels (raw.map (clampInfo levels.length)) j) = some logp) :
    ∃ z h e lP, evidence logp ((raw.map (clampInfo levels.length)).map fun p => p.logl / T) = .ok (z, h, e, lP) ∧
      ∃ ess, pyPost T levels raw = some (z, h, ess) ∧ e * Real.exp (-(raw.length * (1 / 10 ^ 300))) ≤ ess ∧ ess ≤ e := by
  have hp0 : logp ≠ [] := by rintro rfl; simp at hlen; omega
  obtain ⟨z, h, e, lP, hev, hlP, hsum, hlPe, hz, hh, he⟩ :=
    evidence_ok (logl := (raw.map (clampInfo levels.length)).map fun p => p.logl / T) hp0 (by simpa using hlen)
  refine ⟨z, h, e, lP, hev, ?_⟩
  have hclose := ess_close lP (ε := 1 / 10 ^ 300) (by positivity)
  rw [← he, hlP, hlen] at hclose
  refine ⟨_, ?_, hclose⟩
  unfold pyPost
  simp only [hcell, Option.map_some]
  rw [if_neg (by simp; omega)]
  have hP : List.zipWith (· + ·) (logp.map (· - Real.log (logp.map Real.exp).sum))
      ((raw.map (clampInfo levels.length)).map fun p => p.logl / T) ≠ [] := by
    intro hc
    have := congrArg List.length hc
    simp only [List.length_zipWith, List.length_map, List.length_nil] at this
    omega
  rw [npLogsumexp_eq hp0, npLogsumexp_eq hP, ← hz, ← hlPe, hsum]
  simp only [div_one, List.map_id', Option.some.injEq, Prod.mk.injEq, true_and, and_true]
  rw [hh]
  congr 2
  generalize (raw.map (clampInfo levels.length)).map (fun p => p.logl / T) = b
  clear hlPe he hlP hsum hclose hev hh
  induction lP generalizing b with
  | nil => simp
  | cons x l ih =>
    cases b with
    | nil => simp
    | cons y b =>
      have := ih b
      simp only [List.map_cons, List.zipWith_cons_cons, List.zip_cons_cons] at this ⊢
      rw [this]

/-- **C115** (partial: no likelihood may equal a threshold; see `C115_tie_fails`).  When the thresholds of the levels do not decrease
and there are two levels and two samples or more, the evidence and the information of the Python script are those of the C
program, and the effective sample size is the same up to a factor that differs from one by less than the number of samples times
1e-300. -/
theorem C115_agree_partial {α : Type} (T : ℝ) (levels : List PyLevel) (raw : List PInfo) (samples : List α) (draws : List (ℕ × ℝ))
    (out : PostOut α) (hl : 2 ≤ levels.length) (hr : 2 ≤ raw.length) (hg : GoodLevels (levels.map Prod.fst))
    (hthr : levels.Pairwise fun a b => a.1.logl ≤ b.1.logl) (hties : ∀ p ∈ raw, ∀ l ∈ levels, p.logl ≠ l.1.logl)
    (h : postprocessFile T levels.length raw.length (levels.map Prod.fst) raw samples draws = .ok out) :
    ∃ ess, pyPost T levels raw = some (out.logz, out.info, ess) ∧
      out.ess * Real.exp (-(raw.length * (1 / 10 ^ 300))) ≤ ess ∧ ess ≤ out.ess := by
  have hpost : postprocess T (levels.map Prod.fst) (raw.map (clampInfo levels.length)) samples draws = .ok out := by
    simpa [postprocessFile, readLines, List.take_of_length_le] using h
  obtain ⟨logp, logx, lP', top, idx, hm, hev', -⟩ := postprocess_ok hpost
  have hsw : (raw.map (clampInfo levels.length)).map (pySandwich levels) =
      (raw.map (clampInfo levels.length)).map (sandwich (levels.map Prod.fst)) := by
    refine List.map_congr_left fun p hp => (sandwich_py levels p ?_ hthr ?_).symm
    · obtain ⟨q, _, rfl⟩ := List.mem_map.1 hp
      exact clampInfo_lt (by omega) q
    · obtain ⟨q, hq, rfl⟩ := List.mem_map.1 hp
      rw [clampInfo_logl]
      exact hties q hq
  obtain ⟨z, hh, e, lP, hev, ess, hpy, hess⟩ := pyPost_eq T levels raw hl hr (logp := logp)
    (by simpa using (massArrays_length hm).1) (pyCells_eq hg hsw hm)
  rw [hev'] at hev
  simp only [Res.ok.injEq, Prod.mk.injEq] at hev
  obtain ⟨rfl, rfl, rfl, rfl⟩ := hev
  exact ⟨ess, hpy, hess⟩

theorem pyClimb_ge (p : PInfo) (ls : List PyLevel) (s : ℕ) : s ≤ pyClimb p s ls := by
  induction ls generalizing s with
  | nil => exact le_rfl
  | cons l ls ih =>
    rw [pyClimb]
    split
    · have := ih (s + 1); omega
    · exact le_rfl

/-- **C115, the rest is false: where the programs differ.** A sample whose likelihood equals the threshold of the next level, with
a tiebreaker not below that of the level, as a particle has from which the level was made, is left in its level by the C program and
moved up by the Python script. -/
theorem C115_tie (levels : List PyLevel) (p : PInfo) (l : PyLevel) (hl : levels[p.level + 1]? = some l)
    (hthr : levels.Pairwise fun a b => a.1.logl ≤ b.1.logl) (h1 : p.logl = l.1.logl) (h2 : l.2 ≤ p.tie) :
    sandwich (levels.map Prod.fst) p = p.level ∧ p.level + 1 ≤ pySandwich levels p := by
  obtain ⟨hlt, rfl⟩ := List.getElem?_eq_some_iff.1 hl
  have hd : levels.drop (p.level + 1) = levels[p.level + 1] :: levels.drop (p.level + 1 + 1) := List.drop_eq_getElem_cons hlt
  constructor
  · unfold sandwich
    rw [← List.map_drop, List.drop_eq_getElem_cons (by omega : p.level < levels.length), List.map_cons, sandwichGo]
    rw [show (if p.logl > levels[p.level].1.logl then p.level else p.level) = p.level by split <;> rfl]
    refine sandwichGo_below _ _ _ _ fun x hx => ?_
    obtain ⟨y, hy, rfl⟩ := List.mem_map.1 hx
    have hs := hthr.sublist (List.drop_sublist (p.level + 1) levels)
    rw [hd] at hs hy
    rw [h1]
    rcases List.mem_cons.1 hy with rfl | hy
    · exact lt_irrefl _
    · exact not_lt.2 ((List.pairwise_cons.1 hs).1 y hy)
  · unfold pySandwich
    rw [hd, pyClimb, if_pos (Or.inr ⟨h1, h2⟩)]
    exact pyClimb_ge _ _ _

/-- **C115, the rest is false: one level.** From a run with a single level, as a run interrupted early leaves it, the C program computes
an evidence; the Python script raises an exception, as it does with a single sample. -/
theorem C115_one_level {α : Type} (T : ℝ) (l : PyLevel) (hg : GoodLevels [l.1]) (raw : List PInfo) (h0 : raw ≠ []) (samples : List α)
    (hs : raw.length ≤ samples.length) (draws : List (ℕ × ℝ)) (hr : ∀ d ∈ draws, d.1 < raw.length ∧ 0 ≤ d.2 ∧ d.2 < 1)
    (hmany : ∀ w < raw.length, raw.length ≤ draws.countP (fun d => d.1 = w)) :
    (∃ out, postprocessFile T 1 raw.length [l.1] raw samples draws = .ok out) ∧ pyPost T [l] raw = none ∧
      ∀ (levels : List PyLevel) (p : PInfo), pyPost T levels [p] = none := by
  refine ⟨?_, by simp [pyPost], fun levels p => by simp [pyPost]⟩
  have he : postprocessFile T 1 raw.length [l.1] raw samples draws = postprocess T [l.1] (raw.map (clampInfo 1)) samples draws := by
    simp [postprocessFile, readLines, List.take_of_length_le]
  rw [he]
  refine C22_terminates T [l.1] hg _ (by simpa using h0) ?_ samples (by simpa using hs) draws (by simpa using hr) (by simpa using hmany)
  intro p hp
  obtain ⟨q, -, rfl⟩ := List.mem_map.1 hp
  exact clampInfo_lt (by simp) q

/-! ### Cases -/

/-- The levels of the examples, with tiebreakers. -/
noncomputable def exPyLevels : List PyLevel := [(⟨0, -10⟩, 0), (⟨-1, 0⟩, 0)]

theorem exPyLevels_fst : exPyLevels.map Prod.fst = exLevels := rfl

example : ∃ (out : PostOut String) (ess : ℝ), postprocessFile 1 2 3 exLevels exInfo ["a", "b", "c"] exPDraws = .ok out ∧
    pyPost 1 exPyLevels exInfo = some (out.logz, out.info, ess) ∧ ess ≤ out.ess := by
  obtain ⟨out, h⟩ := ex_postprocess
  have hf : postprocessFile 1 2 3 exLevels exInfo ["a", "b", "c"] exPDraws = .ok out := by
    rw [← h]
    simp [postprocessFile, readLines, exLevels, exInfo, clampInfo]
  obtain ⟨ess, h1, -, h2⟩ := C115_agree_partial 1 exPyLevels exInfo ["a", "b", "c"] exPDraws out (by simp [exPyLevels])
    (by simp [exInfo]) (by rw [exPyLevels_fst]; exact exLevels_good) (by simp [exPyLevels])
    (by simp only [exPyLevels, exInfo, List.mem_cons, List.not_mem_nil, or_false, forall_eq_or_imp, forall_eq]; norm_num)
    (by rw [exPyLevels_fst]; exact hf)
  exact ⟨out, ess, hf, h1, h2⟩

/-- Two samples, one of them at the threshold of the second level. -/
noncomputable def tieInfo : List PInfo := [⟨0, 0, 0⟩, ⟨0, -1, 0⟩]

theorem tie_sandwich : tieInfo.map (sandwich exLevels) = [0, 0] := by
  simp [tieInfo, sandwich, exLevels, sandwichGo]

theorem tie_pySandwich : tieInfo.map (pySandwich exPyLevels) = [1, 0] := by
  simp [tieInfo, pySandwich, exPyLevels, pyClimb]

theorem tie_clamp : tieInfo.map (clampInfo 2) = tieInfo := by
  simp [tieInfo, clampInfo]

theorem floor_lt : logXFloor < -1 := by
  have := exLevels_good.2 ⟨-1, 0⟩ (by simp [exLevels])
  exact this

theorem evidence_two (a b x y : ℝ) : ∃ h e lP,
    evidence [a, b] [x, y] =
      .ok (Real.log ((Real.exp a * Real.exp x + Real.exp b * Real.exp y) / (Real.exp a + Real.exp b)), h, e, lP) := by
  obtain ⟨z, h, e, lP, hev, -, -, -, hz, -⟩ := evidence_ok (logp := [a, b]) (logl := [x, y]) (by simp) rfl
  refine ⟨h, e, lP, ?_⟩
  rw [hev, hz]
  have hs : 0 < Real.exp a + Real.exp b := add_pos (Real.exp_pos a) (Real.exp_pos b)
  congr 3
  simp only [List.map_cons, List.map_nil, List.zipWith_cons_cons, List.zipWith_nil_left, List.sum_cons, List.sum_nil, add_zero,
    Real.exp_add, Real.exp_sub, Real.exp_log hs]
  field_simp

/-- Both samples have the same prior mass when both are in the first level. -/
theorem tie_mass {k : ℕ} (hk : k < 2) {q : ℝ} (h : logpAt 0 (-1) 2 k = some q) : Real.exp q = (1 - Real.exp (-1)) / 3 := by
  obtain ⟨r, l, q', hr, hl, hq, -, -, -, he⟩ := logpAt_spec (xmax := 0) (xmin := -1) (by norm_num) hk
  rw [h] at hq
  cases hq
  rw [he]
  have hx : ∀ j < 2, ∃ x, logxAt 0 (-1) 2 j = some x ∧
      Real.exp x = Real.exp (-1) + (1 - Real.exp (-1)) * (((2 : ℝ) - j) / 3) := by
    intro j hj
    obtain ⟨x, e, -, -, h3⟩ := logxAt_spec (xmax := 0) (xmin := -1) (by norm_num) (n := 2) (j := j) (by omega) (by omega)
    refine ⟨x, e, ?_⟩
    rw [h3, Real.exp_zero]
    norm_num
  interval_cases k
  · obtain ⟨x, e, hx⟩ := hx 1 (by omega)
    simp only [leftAt, rightAt] at hl hr
    simp [e] at hl hr
    subst hl; subst hr
    rw [hx, Real.exp_zero]
    norm_num
    ring
  · obtain ⟨x, e, hx⟩ := hx 0 (by omega)
    simp only [leftAt, rightAt] at hl hr
    simp [e] at hl hr
    subst hl; subst hr
    rw [hx]
    norm_num
    ring

theorem tie_c : ∃ q0 q1 logx, massArrays exLevels tieInfo = .ok ([q0, q1], logx) ∧ Real.exp q0 = (1 - Real.exp (-1)) / 3 ∧
    Real.exp q1 = (1 - Real.exp (-1)) / 3 := by
  obtain ⟨logp, logx, hm, hl, -, hspec⟩ := massArrays_spec exLevels_good (info := tieInfo) (by simp [tieInfo, exLevels])
  have hn : (sortedOf exLevels tieInfo 0).length = 2 := by
    unfold sortedOf
    rw [(msortC_perm _ _).length_eq, tie_sandwich]
    simp [membersOf, tieInfo, List.zipIdx]
  have hlow : lowerX exLevels 0 = -1 := by simp [lowerX, exLevels]
  have hs0 : sandwich exLevels ⟨0, 0, 0⟩ = 0 := by simp [sandwich, exLevels, sandwichGo]
  have hs1 : sandwich exLevels ⟨0, -1, 0⟩ = 0 := by simp [sandwich, exLevels, sandwichGo]
  match logp, hl with
  | [q0, q1], _ =>
    refine ⟨q0, q1, logx, hm, ?_, ?_⟩
    · obtain ⟨k, l, q, m, h1, h2, -, -, -, h6, h7⟩ := hspec 0 ⟨0, 0, 0⟩ (by simp [tieInfo])
      rw [hs0] at h1 h2 h7
      have hk := (List.getElem?_eq_some_iff.1 h2).1
      rw [hn] at hk h7
      have hl' : l = ⟨0, -10⟩ := by simpa [exLevels] using h1.symm
      have hq : q0 = q := by simpa using h6
      rw [hlow, hl'] at h7
      rw [hq]
      exact tie_mass hk h7
    · obtain ⟨k, l, q, m, h1, h2, -, -, -, h6, h7⟩ := hspec 1 ⟨0, -1, 0⟩ (by simp [tieInfo])
      rw [hs1] at h1 h2 h7
      have hk := (List.getElem?_eq_some_iff.1 h2).1
      rw [hn] at hk h7
      have hl' : l = ⟨0, -10⟩ := by simpa [exLevels] using h1.symm
      have hq : q1 = q := by simpa using h6
      rw [hlow, hl'] at h7
      rw [hq]
      exact tie_mass hk h7

theorem pySorted_singleton (a : PSample) : pySorted [a] = [a] := by
  unfold pySorted
  exact List.mergeSort_singleton a

theorem pyLogp_lone {xmax xmin : ℝ} (h : xmin < xmax) : ∃ q, pyLogp xmax xmin 1 0 = some q ∧
    Real.exp q = (Real.exp xmax - Real.exp xmin) / 2 := by
  obtain ⟨r, l, q, hr, hl, hq, -, -, -, he⟩ := logpAt_spec h (n := 1) (j := 0) (by omega)
  refine ⟨q, by rw [← logpAt_py h (by omega), hq], ?_⟩
  simp only [leftAt, rightAt] at hl hr
  simp at hl hr
  rw [he, hl, hr]

theorem tie_py : ∃ q0 q1, ((List.range tieInfo.length).mapM fun (j : ℕ) => pyCell exPyLevels tieInfo j) = some [q0, q1] ∧
    Real.exp q0 = (Real.exp (-1) - Real.exp logXFloor) / 2 ∧ Real.exp q1 = (1 - Real.exp (-1)) / 2 := by
  obtain ⟨q0, h0, e0⟩ := pyLogp_lone floor_lt
  obtain ⟨q1, h1, e1⟩ := pyLogp_lone (xmax := 0) (xmin := -1) (by norm_num)
  rw [Real.exp_zero] at e1
  have hlow0 : lowerX exLevels 0 = -1 := by simp [lowerX, exLevels]
  have hlow1 : lowerX exLevels 1 = logXFloor := by simp [lowerX, exLevels]
  have hw : (exPyLevels.zipIdx.flatMap fun e => pyLevelWrites exPyLevels tieInfo (tieInfo.map (pySandwich exPyLevels)) e.2 e.1) =
      [(1, some q1), (0, some q0)] := by
    have hm0 : membersOf tieInfo [1, 0] 0 = [⟨-1, 0, 1⟩] := by simp [membersOf, tieInfo, List.zipIdx]
    have hm1 : membersOf tieInfo [1, 0] 1 = [⟨0, 0, 0⟩] := by simp [membersOf, tieInfo, List.zipIdx]
    rw [tie_pySandwich]
    have hz : exPyLevels.zipIdx = [((⟨0, -10⟩, 0), 0), ((⟨-1, 0⟩, 0), 1)] := by simp [exPyLevels, List.zipIdx]
    rw [hz]
    simp only [List.flatMap_cons, List.flatMap_nil, pyLevelWrites, hm0, hm1, pySorted_singleton, exPyLevels_fst, hlow0, hlow1]
    simp [h0, h1]
  refine ⟨q0, q1, mapM_some ?_, e0, e1⟩
  have hc : ∀ j, pyCell exPyLevels tieInfo j = match ([(1, some q1), (0, some q0)].filter fun w => w.1 = j).getLast? with
      | some w => w.2
      | none => some 0 := by
    intro j
    unfold pyCell
    rw [hw]
    rfl
  refine .cons ?_ (.cons ?_ .nil)
  · rw [hc]; simp
  · rw [hc]; simp

/-- **C115, the rest is false: the evidence.** With a sample at the threshold of a level the Python script reports a smaller evidence
than the C program does from the same files. -/
theorem C115_tie_fails {α : Type} (samples : List α) (draws : List (ℕ × ℝ)) (out : PostOut α)
    (h : postprocessFile 1 2 2 exLevels tieInfo samples draws = .ok out) :
    ∃ z i e, pyPost 1 exPyLevels tieInfo = some (z, i, e) ∧ z < out.logz := by
  have hpost : postprocess 1 exLevels tieInfo samples draws = .ok out := by
    have h' := h
    unfold postprocessFile at h'
    rw [show readLines 2 exLevels = .ok exLevels by simp [readLines, exLevels],
      show readLines 2 tieInfo = .ok tieInfo by simp [readLines, tieInfo]] at h'
    simpa [tie_clamp] using h'
  obtain ⟨logp, logx, lP, top, idx, hm, hev, -⟩ := postprocess_ok hpost
  obtain ⟨q0, q1, logx', hm', e0, e1⟩ := tie_c
  rw [hm] at hm'
  simp only [Res.ok.injEq, Prod.mk.injEq] at hm'
  obtain ⟨rfl, rfl⟩ := hm'
  have hll : (tieInfo.map fun p => p.logl / 1) = [0, -1] := by simp [tieInfo]
  rw [hll] at hev
  obtain ⟨_, _, _, hev2⟩ := evidence_two q0 q1 0 (-1)
  rw [hev2] at hev
  simp only [Res.ok.injEq, Prod.mk.injEq] at hev
  obtain ⟨hz, -⟩ := hev
  obtain ⟨p0, p1, hp, f0, f1⟩ := tie_py
  obtain ⟨z, i, e, lP', hev3, ess, hpy, -⟩ := pyPost_eq 1 exPyLevels tieInfo (by simp [exPyLevels]) (by simp [tieInfo]) (logp := [p0, p1])
    (by simp [tieInfo]) (by rw [show exPyLevels.length = 2 from rfl, tie_clamp]; exact hp)
  refine ⟨z, i, ess, hpy, ?_⟩
  rw [show exPyLevels.length = 2 from rfl, tie_clamp, hll] at hev3
  obtain ⟨_, _, _, hev4⟩ := evidence_two p0 p1 0 (-1)
  rw [hev4] at hev3
  simp only [Res.ok.injEq, Prod.mk.injEq] at hev3
  rw [← hev3.1, ← hz, e0, e1, f0, f1, Real.exp_zero]
  have ha0 := Real.exp_pos (-1)
  have ha : Real.exp (-1) < 1 / 2 := by
    have := Real.add_one_lt_exp (x := 1) (by norm_num)
    rw [Real.exp_neg, inv_lt_comm₀ (Real.exp_pos 1) (by norm_num)]
    linarith
  have hf0 := Real.exp_pos logXFloor
  have hf : Real.exp logXFloor < Real.exp (-1) := Real.exp_lt_exp.2 floor_lt
  generalize Real.exp (-1) = a at *
  generalize Real.exp logXFloor = f at *
  refine Real.log_lt_log ?_ ?_
  · apply div_pos
    · nlinarith
    · linarith
  · rw [div_lt_div_iff₀ (by linarith) (by linarith)]
    nlinarith [mul_pos (sub_pos.2 ha) (sub_pos.2 (lt_trans ha (by norm_num : (1:ℝ)/2 < 1))), mul_pos hf0 (sub_pos.2 (lt_trans ha (by norm_num : (1:ℝ)/2 < 1)))]

/-- Such files are processed by the C program. -/
example : ∃ (out : PostOut String) (z i e : ℝ), postprocessFile 1 2 2 exLevels tieInfo ["a", "b"] [(0, 1/2), (0, 1/3), (1, 1/2), (1, 1/3)] = .ok out ∧
    pyPost 1 exPyLevels tieInfo = some (z, i, e) ∧ z < out.logz := by
  obtain ⟨out, h⟩ := C22_terminates 1 exLevels exLevels_good tieInfo (by simp [tieInfo]) (by simp [tieInfo, exLevels]) ["a", "b"]
    (by simp [tieInfo]) [(0, 1/2), (0, 1/3), (1, 1/2), (1, 1/3)] (by norm_num [tieInfo]) (by
      intro w hw
      simp only [tieInfo, List.length_cons, List.length_nil] at hw ⊢
      interval_cases w <;> simp)
  have hf : postprocessFile 1 2 2 exLevels tieInfo ["a", "b"] [(0, 1/2), (0, 1/3), (1, 1/2), (1, 1/3)] = .ok out := by
    rw [← h]
    unfold postprocessFile
    rw [show readLines 2 exLevels = .ok exLevels by simp [readLines, exLevels],
      show readLines 2 tieInfo = .ok tieInfo by simp [readLines, tieInfo]]
    simp [tie_clamp]
  obtain ⟨z, i, e, h1, h2⟩ := C115_tie_fails _ _ _ hf
  exact ⟨out, z, i, e, hf, h1, h2⟩

/-- The first sample of that case. -/
example : sandwich (exPyLevels.map Prod.fst) ⟨0, 0, 0⟩ = 0 ∧ 1 ≤ pySandwich exPyLevels ⟨0, 0, 0⟩ :=
  C115_tie exPyLevels ⟨0, 0, 0⟩ (⟨-1, 0⟩, 0) (by simp [exPyLevels]) (by simp [exPyLevels]) rfl le_rfl

/-- One level, two samples. -/
example : (∃ out, postprocessFile 1 1 2 [⟨0, -10⟩] [⟨0, 0, 0⟩, ⟨0, -1, 0⟩] ["a", "b"] [(0, 0), (1, 0), (0, 0), (1, 0)] = .ok out) ∧
    pyPost 1 [(⟨0, -10⟩, 0)] [⟨0, 0, 0⟩, ⟨0, -1, 0⟩] = none :=
  have h := C115_one_level 1 (⟨0, -10⟩, 0) ⟨by simp, by simpa using floor_lt.trans (by norm_num)⟩ [⟨0, 0, 0⟩, ⟨0, -1, 0⟩] (by simp) ["a", "b"] (by simp)
    [(0, 0), (1, 0), (0, 0), (1, 0)] (by simp) (by
      intro w hw
      have : w = 0 ∨ w = 1 := by simp at hw; omega
      rcases this with rfl | rfl <;> decide +kernel)
  ⟨h.1, h.2.1⟩

end Mica
