import Verif.Props.Postprocess
import Mathlib.Data.List.Sort
import Mathlib.Data.List.Perm.Basic

/-!
# C98: the evidence does not depend on the order of the rows in the sample files

The rows of the sample files come in the order in which the processes happened to write them.
-/

namespace Mica

/-- The likelihoods of the samples of a level, in increasing order. -/
noncomputable def rankedLogl (levels : List PLevel) (info : List PInfo) (i : ℕ) : List ℝ :=
  (sortedOf levels info i).map PSample.logl

theorem membersOf_logl (levels : List PLevel) (info : List PInfo) (i : ℕ) :
    (membersOf info (info.map (sandwich levels)) i).map PSample.logl =
      (info.filter fun p => sandwich levels p = i).map PInfo.logl := by
  unfold membersOf
  rw [List.map_map]
  have key : ∀ (l : List PInfo) (n : ℕ),
      (((l.zip (l.map (sandwich levels))).zipIdx n).filter (fun e => decide (e.1.2 = i))).map
        (PSample.logl ∘ fun e => { logl := e.1.1.logl, tie := e.1.1.tie, id := e.2 }) =
      (l.filter fun p => decide (sandwich levels p = i)).map PInfo.logl := by
    intro l
    induction l with
    | nil => intro n; rfl
    | cons p l ih =>
      intro n
      simp only [List.map_cons, List.zip_cons_cons, List.zipIdx_cons, List.filter_cons]
      by_cases h : sandwich levels p = i
      · simp only [h, decide_true, if_true, List.map_cons, ih]; rfl
      · simp only [h, decide_false, Bool.false_eq_true, if_false, ih]
  exact key info 0

theorem rankedLogl_perm {levels : List PLevel} {info info' : List PInfo} (h : info.Perm info') (i : ℕ) :
    rankedLogl levels info i = rankedLogl levels info' i := by
  have hs : ∀ inf : List PInfo, (rankedLogl levels inf i).Pairwise (· ≤ ·) := fun inf =>
    List.pairwise_map.2 (sortedOf_sorted levels inf i)
  have hp : ∀ inf : List PInfo, (rankedLogl levels inf i).Perm ((inf.filter fun p => sandwich levels p = i).map PInfo.logl) := by
    intro inf
    rw [← membersOf_logl]
    exact (msortC_perm _ _).map _
  exact (((hp info).trans ((h.filter _).map _)).trans (hp info').symm).eq_of_pairwise' (hs info) (hs info')

/-- What belongs to rank `k` in level `i`: log X, log prior mass and likelihood, for the ranked likelihoods `r`. -/
noncomputable def rankVal (levels : List PLevel) (r : ℕ → List ℝ) (x : ℕ × ℕ) : Option ℝ × ℝ × ℝ :=
  let l := levels.getD x.1 ⟨0, 0⟩
  (logxAt l.logX (lowerX levels x.1) (r x.1).length x.2, (logpAt l.logX (lowerX levels x.1) (r x.1).length x.2).getD 0,
    (r x.1).getD x.2 0)

/-- All ranks of all levels. -/
def ranks (r : ℕ → List ℝ) (n : ℕ) : List (ℕ × ℕ) :=
  (List.range n).flatMap fun i => (List.range (r i).length).map fun k => (i, k)

theorem mem_ranks {r : ℕ → List ℝ} {n : ℕ} {x : ℕ × ℕ} : x ∈ ranks r n ↔ x.1 < n ∧ x.2 < (r x.1).length := by
  simp only [ranks, List.mem_flatMap, List.mem_range, List.mem_map]
  constructor
  · rintro ⟨i, hi, k, hk, rfl⟩
    exact ⟨hi, hk⟩
  · rintro ⟨h1, h2⟩
    exact ⟨x.1, h1, x.2, h2, rfl⟩

theorem ranks_nodup (r : ℕ → List ℝ) (n : ℕ) : (ranks r n).Nodup := by
  unfold ranks
  rw [List.nodup_flatMap]
  refine ⟨fun i _ => (List.nodup_range).map fun a b hab => (Prod.mk.inj hab).2, ?_⟩
  refine List.nodup_range.imp fun {a b} hab => ?_
  intro x h1 h2
  obtain ⟨k, _, rfl⟩ := List.mem_map.1 h1
  obtain ⟨k', _, h⟩ := List.mem_map.1 h2
  exact hab (Prod.mk.inj h).1.symm

/-- The rows with what post-processing attaches to them are, up to order, the ranks of the levels. -/
theorem rows_ranks {levels : List PLevel} (hg : GoodLevels levels) {info : List PInfo}
    (hlev : ∀ p ∈ info, p.level < levels.length) :
    ∃ logp logx, massArrays levels info = .ok (logp, logx) ∧ logp.length = info.length ∧ logx.length = info.length ∧
      (logx.zip (logp.zip (info.map PInfo.logl))).Perm
        ((ranks (rankedLogl levels info) levels.length).map (rankVal levels (rankedLogl levels info))) := by
  obtain ⟨logp, logx, hm, hl1, hl2, hspec⟩ := massArrays_spec hg hlev
  refine ⟨logp, logx, hm, hl1, hl2, ?_⟩
  have hrl : ∀ i, (rankedLogl levels info i).length = (sortedOf levels info i).length := fun i => by simp [rankedLogl]
  have hex : ∀ j : Fin info.length, ∃ k, k < (sortedOf levels info (sandwich levels info[j])).length ∧
      (∃ m, (sortedOf levels info (sandwich levels info[j]))[k]? = some m ∧ m.id = j) ∧
      (logx[j]'(by omega), logp[j]'(by omega), info[j].logl) =
        rankVal levels (rankedLogl levels info) (sandwich levels info[j], k) := by
    intro j
    obtain ⟨k, l, q, m, h1, h2, h3, h4, h5, h6, h7⟩ := hspec j info[j] (List.getElem?_eq_getElem j.2)
    refine ⟨k, (List.getElem?_eq_some_iff.1 h2).1, ⟨m, h2, h3⟩, ?_⟩
    obtain ⟨_, e5⟩ := List.getElem?_eq_some_iff.1 h5
    obtain ⟨_, e6⟩ := List.getElem?_eq_some_iff.1 h6
    refine Prod.ext (e5.trans ?_) (Prod.ext (e6.trans ?_) ?_)
    · simp only [rankVal, List.getD_eq_getElem?_getD, h1, Option.getD_some, hrl]
    · simp only [rankVal, List.getD_eq_getElem?_getD, h1, Option.getD_some, hrl, h7]
    · simp only [rankVal, List.getD_eq_getElem?_getD, rankedLogl, List.getElem?_map, h2, Option.map_some, Option.getD_some, h4]
  choose K hK using hex
  have hz : logx.zip (logp.zip (info.map PInfo.logl)) =
      (List.finRange info.length).map (fun j => rankVal levels (rankedLogl levels info) (sandwich levels info[j], K j)) := by
    apply List.ext_getElem
    · simp [hl1, hl2]
    · intro j h1 h2
      have hj : j < info.length := by simpa using h2
      have := (hK ⟨j, hj⟩).2.2
      simp only [List.getElem_zip, List.getElem_map, List.getElem_finRange]
      exact this
  rw [hz]
  have hpos : ((List.finRange info.length).map fun j => (sandwich levels info[j], K j)).Perm
      (ranks (rankedLogl levels info) levels.length) := by
    refine (List.perm_ext_iff_of_nodup ?_ (ranks_nodup _ _)).2 ?_
    · refine (List.nodup_finRange _).map fun a b hab => ?_
      obtain ⟨e1, e2⟩ := Prod.mk.inj hab
      obtain ⟨m, hm1, hm2⟩ := (hK a).2.1
      obtain ⟨m', hm1', hm2'⟩ := (hK b).2.1
      rw [e1, e2, hm1'] at hm1
      cases hm1
      exact Fin.ext (hm2.symm.trans hm2')
    · intro x
      rw [mem_ranks, List.mem_map]
      constructor
      · rintro ⟨j, _, rfl⟩
        exact ⟨sandwich_lt (hlev _ (List.getElem_mem _)), by rw [hrl]; exact (hK j).1⟩
      · rintro ⟨_, h2⟩
        obtain ⟨i, k⟩ := x
        simp only [hrl] at h2
        set m := (sortedOf levels info i)[k] with hmk
        obtain ⟨p, hp, hf, -⟩ := mem_membersOf.1 ((msortC_perm _ _).mem_iff.1 (List.getElem_mem h2))
        obtain ⟨hj, rfl⟩ := List.getElem?_eq_some_iff.1 hp
        refine ⟨⟨m.id, hj⟩, List.mem_finRange _, ?_⟩
        obtain ⟨hk, ⟨m', h1, h3⟩, -⟩ := hK ⟨m.id, hj⟩
        have hf' : sandwich levels info[(⟨m.id, hj⟩ : Fin info.length)] = i := hf
        rw [hf'] at h1 hk ⊢
        have hnd : ((sortedOf levels info i).map PSample.id).Nodup :=
          ((msortC_perm _ _).map _).nodup_iff.2 (membersOf_nodup _ _ _)
        have := (List.Nodup.getElem_inj_iff hnd (i := K ⟨m.id, hj⟩) (j := k) (hi := by simpa using hk)
          (hj := by simpa using h2)).1 (by
            simp only [List.getElem_map]
            rw [← hmk]
            obtain ⟨_, e⟩ := List.getElem?_eq_some_iff.1 h1
            rw [e]; exact h3)
        rw [this]
  have := hpos.map (rankVal levels (rankedLogl levels info))
  rwa [List.map_map] at this

/-- Rows with what is attached to them, in two orders of the file. -/
theorem rows_perm {levels : List PLevel} (hg : GoodLevels levels) {info info' : List PInfo} (h : info.Perm info')
    (hlev : ∀ p ∈ info, p.level < levels.length) {logp logp' : List ℝ} {logx logx' : List (Option ℝ)}
    (hm : massArrays levels info = .ok (logp, logx)) (hm' : massArrays levels info' = .ok (logp', logx')) :
    (logx.zip (logp.zip (info.map PInfo.logl))).Perm (logx'.zip (logp'.zip (info'.map PInfo.logl))) := by
  obtain ⟨_, _, e, _, _, p1⟩ := rows_ranks hg hlev
  obtain ⟨_, _, e', _, _, p2⟩ := rows_ranks hg (info := info') fun p hp => hlev p (h.mem_iff.2 hp)
  rw [hm] at e; cases e
  rw [hm'] at e'; cases e'
  have : rankedLogl levels info' = rankedLogl levels info := funext fun i => (rankedLogl_perm h i).symm
  rw [this] at p2
  exact p1.trans p2.symm

theorem evidence_map {ι : Type*} (t : List ι) (f g : ι → ℝ) (h0 : t ≠ []) :
    let s := Real.log (t.map fun a => Real.exp (f a)).sum
    let z := Real.log (t.map fun a => Real.exp (f a - s + g a)).sum
    let φ := fun a => f a - s + g a - z
    evidence (t.map f) (t.map g) = .ok (z, -z + (t.map fun a => Real.exp (φ a) * g a).sum,
      Real.exp (t.map fun a => -φ a * Real.exp (φ a)).sum, t.map φ) := by
  intro s z φ
  obtain ⟨z', h', e', lP', heq, -, -, hlP, hz, hh, he⟩ := evidence_ok (logp := t.map f) (logl := t.map g) (by simpa using h0)
    (by simp)
  have hs : Real.log ((t.map f).map Real.exp).sum = s := by rw [List.map_map]; rfl
  have hzw : List.zipWith (· + ·) ((t.map f).map (· - s)) (t.map g) = t.map fun a => f a - s + g a := by
    rw [List.map_map, List.zipWith_map, List.zipWith_self]; rfl
  rw [hs, hzw] at hz hlP
  have hz' : z' = z := by rw [hz, List.map_map]; rfl
  rw [hz', List.map_map] at hlP
  have hlP' : lP' = t.map φ := hlP
  rw [heq, hh, he, hlP', hz', List.zip_map', List.map_map, List.map_map]
  rfl

theorem maxLoop_perm {x y : ℝ} {l l' : List ℝ} (h : l.Perm l') (hx : x ∈ l) (hy : y ∈ l') : maxLoop x l = maxLoop y l' := by
  have m1 : maxLoop x l ∈ l := by
    rcases maxLoop_mem x l with h | h
    · rw [h]; exact hx
    · exact h
  have m2 : maxLoop y l' ∈ l' := by
    rcases maxLoop_mem y l' with h | h
    · rw [h]; exact hy
    · exact h
  exact le_antisymm ((maxLoop_ge y l').2 _ (h.mem_iff.1 m1)) ((maxLoop_ge x l).2 _ (h.mem_iff.2 m2))

/-- C98: with the rows of the sample files in another order (and whatever random numbers are drawn for the choice
of the posterior sample) the evidence, the information, the effective sample size and the number of posterior
samples are the same, and the file of weights has the same rows. -/
theorem C98_rows {α β : Type} (T : ℝ) (levels : List PLevel) (hg : GoodLevels levels) (info info' : List PInfo)
    (hp : info.Perm info') (hlev : ∀ p ∈ info, p.level < levels.length) (samples : List α) (samples' : List β)
    (draws draws' : List (ℕ × ℝ)) (out : PostOut α) (out' : PostOut β)
    (h : postprocess T levels info samples draws = .ok out)
    (h' : postprocess T levels info' samples' draws' = .ok out') :
    out'.logz = out.logz ∧ out'.info = out.info ∧ out'.ess = out.ess ∧ out'.numPs = out.numPs ∧
      out.weights.Perm out'.weights := by
  obtain ⟨logp, logx, lP, top, idx, hm, hev, ht, -, hn, -, -, -, hw⟩ := postprocess_ok h
  obtain ⟨logp', logx', lP', top', idx', hm', hev', ht', -, hn', -, -, -, hw'⟩ := postprocess_ok h'
  obtain ⟨hl1, hl2⟩ := massArrays_length hm
  obtain ⟨hl1', hl2'⟩ := massArrays_length hm'
  have hperm := rows_perm hg hp hlev hm hm'
  -- the columns in terms of the rows
  have hc : ∀ (inf : List PInfo) (lx : List (Option ℝ)) (lp : List ℝ), lp.length = inf.length → lx.length = inf.length →
      lp = (lx.zip (lp.zip (inf.map PInfo.logl))).map (fun a => a.2.1) ∧
      inf.map (fun p => p.logl / T) = (lx.zip (lp.zip (inf.map PInfo.logl))).map (fun a => a.2.2 / T) := by
    intro inf
    induction inf with
    | nil => intro lx lp e1 e2; cases lp <;> cases lx <;> simp_all
    | cons p inf ih =>
      intro lx lp e1 e2
      cases lp with
      | nil => simp at e1
      | cons a lp =>
        cases lx with
        | nil => simp at e2
        | cons b lx =>
          obtain ⟨i1, i2⟩ := ih lx lp (by simpa using e1) (by simpa using e2)
          constructor
          · simp only [List.map_cons, List.zip_cons_cons]; rw [← i1]
          · simp only [List.map_cons, List.zip_cons_cons]; rw [← i2]
  obtain ⟨c1, c2⟩ := hc info logx logp hl1 hl2
  obtain ⟨c1', c2'⟩ := hc info' logx' logp' hl1' hl2'
  have h0 : logp ≠ [] := by
    rintro rfl
    simp [evidence, logsumexp] at hev
  have hw0 : ∀ (inf : List PInfo) (lx : List (Option ℝ)) (lp : List ℝ) (φ : Option ℝ × ℝ × ℝ → ℝ) (c : ℝ),
      lp.length = inf.length → lx.length = inf.length →
      List.zipWith (fun (c : Option ℝ × PInfo) x => (c.1, c.2.logl, Real.exp x)) (lx.zip inf)
        (((lx.zip (lp.zip (inf.map PInfo.logl))).map φ).map (· - c)) =
      (lx.zip (lp.zip (inf.map PInfo.logl))).map fun a => (a.1, a.2.2, Real.exp (φ a - c)) := by
    intro inf
    induction inf with
    | nil => intro lx lp φ c e1 e2; simp
    | cons p inf ih =>
      intro lx lp φ c e1 e2
      cases lp with
      | nil => simp at e1
      | cons a lp =>
        cases lx with
        | nil => simp at e2
        | cons b lx =>
          have := ih lx lp φ c (by simpa using e1) (by simpa using e2)
          simp only [List.map_cons, List.zip_cons_cons, List.zipWith_cons_cons, this]
  set t := logx.zip (logp.zip (info.map PInfo.logl)) with htdef
  set t' := logx'.zip (logp'.zip (info'.map PInfo.logl)) with htdef'
  have ht0 : t ≠ [] := by
    intro e
    rw [e] at c1
    exact h0 c1
  have ht0' : t' ≠ [] := by
    intro e
    rw [e] at hperm
    exact ht0 hperm.eq_nil
  rw [c2, c1, evidence_map t _ _ ht0] at hev
  rw [c2', c1', evidence_map t' _ _ ht0'] at hev'
  have hs : ∀ F : Option ℝ × ℝ × ℝ → ℝ, (t'.map F).sum = (t.map F).sum := fun F => ((hperm.map F).sum_eq).symm
  simp only [hs] at hev'
  simp only [Res.ok.injEq, Prod.mk.injEq] at hev hev'
  obtain ⟨z1, z2, z3, z4⟩ := hev
  obtain ⟨y1, y2, y3, y4⟩ := hev'
  refine ⟨y1.symm.trans z1, y2.symm.trans z2, y3.symm.trans z3, ?_, ?_⟩
  · rw [hn, hn', ← y3, z3]
  · have hmx : maxLoop top lP = maxLoop top' lP' := by
      refine maxLoop_perm ?_ (List.mem_of_getElem? ht) (List.mem_of_getElem? ht')
      rw [← z4, ← y4]
      exact hperm.map _
    rw [hw, hw', ← hmx, ← z4, ← y4, hw0 _ _ _ _ _ hl1 hl2, hw0 _ _ _ _ _ hl1' hl2']
    exact hperm.map _

/-- C98 for the files themselves: all rows are read, assignments beyond the last level are reset. -/
theorem C98_files {α β : Type} (T : ℝ) (numLevels numSamples : ℕ) (levelFile : List PLevel)
    (hg : GoodLevels (levelFile.take numLevels)) (h1 : 0 < numLevels) (infoFile infoFile' : List PInfo)
    (hp : infoFile.Perm infoFile') (hn : infoFile.length = numSamples) (sampleFile : List α) (sampleFile' : List β)
    (draws draws' : List (ℕ × ℝ)) (out : PostOut α) (out' : PostOut β)
    (h : postprocessFile T numLevels numSamples levelFile infoFile sampleFile draws = .ok out)
    (h' : postprocessFile T numLevels numSamples levelFile infoFile' sampleFile' draws' = .ok out') :
    out'.logz = out.logz ∧ out'.info = out.info ∧ out'.ess = out.ess ∧ out'.numPs = out.numPs ∧
      out.weights.Perm out'.weights := by
  unfold postprocessFile at h h'
  obtain ⟨lv, hl, h⟩ := Res.bind_eq_ok.1 h
  obtain ⟨raw, hr, h⟩ := Res.bind_eq_ok.1 h
  obtain ⟨lv', hl', h'⟩ := Res.bind_eq_ok.1 h'
  obtain ⟨raw', hr', h'⟩ := Res.bind_eq_ok.1 h'
  rw [hl] at hl'
  cases hl'
  unfold readLines at hl hr hr'
  split at hl
  · cases hl
  rename_i hlen
  cases hl
  rw [if_neg (by omega), List.take_of_length_le (by omega)] at hr
  cases hr
  rw [if_neg (by rw [← hp.length_eq]; omega), List.take_of_length_le (by rw [← hp.length_eq]; omega)] at hr'
  cases hr'
  refine C98_rows T _ hg _ _ (hp.map _) (fun p hp => ?_) sampleFile sampleFile' draws draws' out out' h h'
  obtain ⟨q, -, rfl⟩ := List.mem_map.1 hp
  rw [List.length_take]
  unfold clampInfo
  split
  · simp only; omega
  · omega

/-- The samples of the example in another order. -/
noncomputable def exInfo' : List PInfo := [⟨1, 2, 1/4⟩, ⟨0, -5, 1/2⟩, ⟨0, -3, 1/3⟩]

example : ∃ out out', postprocess 1 exLevels exInfo ["a", "b", "c"] exPDraws = .ok out ∧
    postprocess 1 exLevels exInfo' ["c", "a", "b"] exPDraws = .ok out' ∧ out'.logz = out.logz := by
  have hp : exInfo.Perm exInfo' := by
    unfold exInfo exInfo'
    exact (List.Perm.cons _ (List.Perm.swap _ _ _)).trans (List.Perm.swap _ _ _)
  obtain ⟨out, h⟩ := ex_postprocess
  obtain ⟨out', h'⟩ : ∃ out', postprocess 1 exLevels exInfo' ["c", "a", "b"] exPDraws = .ok out' := by
    apply C22_terminates 1 exLevels exLevels_good
    · simp [exInfo']
    · simp [exInfo', exLevels]
    · simp [exInfo']
    · intro d hd
      simp only [exPDraws, List.mem_cons, List.not_mem_nil, or_false] at hd
      rcases hd with rfl | rfl | rfl | rfl | rfl | rfl | rfl | rfl | rfl <;>
        norm_num [exInfo']
    · intro w hw
      simp only [exInfo', List.length_cons, List.length_nil] at hw ⊢
      interval_cases w <;> simp [exPDraws]
  exact ⟨out, out', h, h', (C98_rows 1 exLevels exLevels_good exInfo exInfo' hp (by simp [exInfo, exLevels]) _ _ _ _ _ _ h h').1⟩

end Mica
