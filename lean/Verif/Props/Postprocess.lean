import Verif.Proof.Postprocess2

/-! # C19-C23: post-processing -/

namespace Mica

/-- C19: `logsumexp` is the logarithm of the sum of exponentials for every non-empty list; the
argument of every `exp` it evaluates is at most 0 and one of them is 0, so nothing overflows and the
sum is at least 1. -/
theorem C19_logsumexp (x0 : ℝ) (xs : List ℝ) :
    logsumexp (x0 :: xs) = .ok (Real.log ((x0 :: xs).map Real.exp).sum) ∧
    (∀ y ∈ x0 :: xs, y - maxLoop x0 (x0 :: xs) ≤ 0) ∧ maxLoop x0 (x0 :: xs) ∈ x0 :: xs := by
  refine ⟨logsumexp_ok (by simp), ?_, ?_⟩
  · intro y hy
    have := (maxLoop_ge x0 (x0 :: xs)).2 y hy
    linarith
  · rcases maxLoop_mem x0 (x0 :: xs) with h | h
    · rw [h]; simp
    · exact h

/-- C19: shifting every entry shifts the result. -/
theorem C19_shift (x : List ℝ) (c r : ℝ) (h : logsumexp x = .ok r) :
    logsumexp (x.map (· + c)) = .ok (r + c) := by
  cases x with
  | nil => simp [logsumexp] at h
  | cons a l =>
    rw [logsumexp_ok (by simp)] at h
    cases h
    rw [logsumexp_ok (by simp), sum_map_exp_add,
      Real.log_mul (sum_exp_pos (by simp)).ne' (Real.exp_pos _).ne', Real.log_exp]

example : logsumexp [0, 0] = .ok (Real.log 2) := by
  rw [logsumexp_ok (by simp)]; norm_num

/-- What a successful post-processing has computed. -/
theorem postprocess_ok {α : Type} {T : ℝ} {levels : List PLevel} {info : List PInfo} {samples : List α}
    {draws : List (ℕ × ℝ)} {out : PostOut α} (h : postprocess T levels info samples draws = .ok out) :
    ∃ logp logx lP top idx, massArrays levels info = .ok (logp, logx) ∧
      evidence logp (info.map (fun p => p.logl / T)) = .ok (out.logz, out.info, out.ess, lP) ∧
      lP[0]? = some top ∧
      pickMany (lP.map (· - maxLoop top lP)) ⌊out.ess⌋₊ draws = .ok idx ∧ out.numPs = ⌊out.ess⌋₊ ∧
      mapRes (fun w => Res.get (info.map (fun p => p.logl / T)) w) idx = .ok out.postInfo ∧
      info.length ≤ samples.length ∧
      mapRes finiteOr (copyAll idx (samples.take info.length)) = .ok out.post ∧
      out.weights = List.zipWith (fun (c : Option ℝ × PInfo) x => (c.1, c.2.logl, Real.exp x))
          (logx.zip info) (lP.map (· - maxLoop top lP)) := by
  unfold postprocess at h
  obtain ⟨⟨logp, logx⟩, hm, h⟩ := Res.bind_eq_ok.1 h
  obtain ⟨⟨z, hh, e, lP⟩, hev, h⟩ := Res.bind_eq_ok.1 h
  obtain ⟨top, ht, h⟩ := Res.bind_eq_ok.1 h
  obtain ⟨idx, hi, h⟩ := Res.bind_eq_ok.1 h
  obtain ⟨pi, hpi, h⟩ := Res.bind_eq_ok.1 h
  obtain ⟨ss, hss, h⟩ := Res.bind_eq_ok.1 h
  obtain ⟨ps, hps, h⟩ := Res.bind_eq_ok.1 h
  cases h
  unfold readLines at hss
  split at hss
  · cases hss
  · cases hss
    exact ⟨logp, logx, lP, top, idx, hm, hev, Res.get_eq_ok.1 ht, hi, rfl, hpi, by omega, hps, rfl⟩

theorem massArrays_length {levels : List PLevel} {info : List PInfo} {logp : List ℝ}
    {logx : List (Option ℝ)} (h : massArrays levels info = .ok (logp, logx)) :
    logp.length = info.length ∧ logx.length = info.length := by
  unfold massArrays at h
  obtain ⟨cells, hc, h⟩ := Res.bind_eq_ok.1 h
  obtain ⟨lp, hlp, h⟩ := Res.bind_eq_ok.1 h
  cases h
  have h1 := (mapRes_eq_ok hc).length_eq
  have h2 := (mapRes_eq_ok hlp).length_eq
  simp at h1 h2 ⊢
  omega

/-- C20: the posterior probabilities `P` form a probability distribution, each is the prior mass times
the (tempered) likelihood divided by the evidence, the reported evidence is the prior-mass average of
the likelihood, and the weights written to file are the probabilities divided by the largest one. -/
theorem C20_distribution {α : Type} (T : ℝ) (levels : List PLevel) (info : List PInfo)
    (samples : List α) (draws : List (ℕ × ℝ)) (out : PostOut α)
    (h : postprocess T levels info samples draws = .ok out) :
    ∃ (mass P : List ℝ), mass.length = info.length ∧ P.length = info.length ∧
      (∀ m ∈ mass, 0 < m) ∧ mass.sum = 1 ∧ (∀ q ∈ P, 0 < q) ∧ P.sum = 1 ∧
      Real.exp out.logz = (List.zipWith (fun m p => m * Real.exp (p.logl / T)) mass info).sum ∧
      P = List.zipWith (fun m p => m * Real.exp (p.logl / T) / Real.exp out.logz) mass info ∧
      ∃ q ∈ P, (∀ q' ∈ P, q' ≤ q) ∧ out.weights.map (·.2.2) = P.map (· / q) := by
  obtain ⟨logp, logx, lP, top, idx, hm, hev, ht, -, -, -, -, -, hw⟩ := postprocess_ok h
  obtain ⟨hl1, hl2⟩ := massArrays_length hm
  have h0 : logp ≠ [] := by
    rintro rfl
    simp [evidence, logsumexp] at hev
  obtain ⟨z', h', e', lP', heq, hl, hs, hlP, hz, hh, he⟩ :=
    evidence_ok (logl := info.map (fun p => p.logl / T)) h0 (by simpa using hl1)
  rw [hev] at heq
  simp only [Res.ok.injEq, Prod.mk.injEq] at heq
  obtain ⟨rfl, rfl, rfl, rfl⟩ := heq
  set lp := logp.map (· - Real.log (logp.map Real.exp).sum) with hlp
  have hne : List.zipWith (· + ·) lp (info.map (fun p => p.logl / T)) ≠ [] := by
    intro h
    have := congrArg List.length h
    simp only [List.length_zipWith, hlp, List.length_map, List.length_nil] at this
    have := List.length_pos_iff.2 h0
    omega
  have hsum : ∀ (a : List ℝ), (List.zipWith (· + ·) a (info.map (fun p => p.logl / T))).map Real.exp
      = List.zipWith (fun m p => m * Real.exp (p.logl / T)) (a.map Real.exp) info := by
    intro a
    rw [List.map_zipWith, List.zipWith_map_right, List.zipWith_map_left]
    congr 1
    funext x y
    exact Real.exp_add _ _
  refine ⟨lp.map Real.exp, lP.map Real.exp, by simp [hlp, hl1], by simp [hl, hl1], ?_, ?_, ?_, hs, ?_, ?_, ?_⟩
  · intro m hm; obtain ⟨x, _, rfl⟩ := List.mem_map.1 hm; exact Real.exp_pos x
  · exact sum_exp_normalised h0
  · intro m hm; obtain ⟨x, _, rfl⟩ := List.mem_map.1 hm; exact Real.exp_pos x
  · rw [hz, Real.exp_log (sum_exp_pos hne), hsum]
  · have e : List.zipWith (fun (m : ℝ) (p : PInfo) => m * Real.exp (p.logl / T) / Real.exp out.logz)
        (lp.map Real.exp) info = (List.zipWith (fun (m : ℝ) (p : PInfo) => m * Real.exp (p.logl / T))
        (lp.map Real.exp) info).map (· / Real.exp out.logz) := by rw [List.map_zipWith]
    rw [e, ← hsum, hlP, List.map_map, List.map_map]
    apply List.map_congr_left
    intro x _
    simp [Real.exp_sub]
  · have htm : top ∈ lP := List.mem_of_getElem? ht
    have hmx : maxLoop top lP ∈ lP := by
      rcases maxLoop_mem top lP with h | h
      · rw [h]; exact htm
      · exact h
    refine ⟨Real.exp (maxLoop top lP), List.mem_map_of_mem hmx, ?_, ?_⟩
    · intro q' hq'
      obtain ⟨x, hx, rfl⟩ := List.mem_map.1 hq'
      exact Real.exp_le_exp.2 ((maxLoop_ge top lP).2 x hx)
    · rw [hw, List.map_zipWith]
      have hlen : (logx.zip info).length = (lP.map (· - maxLoop top lP)).length := by
        simp [hl2, hl, hl1]
      have : ∀ (a : List (Option ℝ × PInfo)) (b : List ℝ), a.length = b.length →
          List.zipWith (fun (_ : Option ℝ × PInfo) y => Real.exp y) a b = b.map Real.exp := by
        intro a
        induction a with
        | nil => intro b hb; cases b <;> simp_all
        | cons x a ih => intro b hb; cases b with
          | nil => simp at hb
          | cons y b => simp [ih b (by simpa using hb)]
      rw [this _ _ hlen, List.map_map, List.map_map]
      apply List.map_congr_left
      intro x _
      simp [Real.exp_sub]

/-- C20: adding a constant to all likelihoods (of samples and of levels) changes nothing but the
evidence and the printed likelihoods. -/
theorem C20_shift {α : Type} (T c : ℝ) (levels : List PLevel) (info : List PInfo)
    (samples : List α) (draws : List (ℕ × ℝ)) (out : PostOut α)
    (h : postprocess T levels info samples draws = .ok out) :
    ∃ out', postprocess T (levels.map fun l => { l with logl := l.logl + c })
        (info.map fun p => { p with logl := p.logl + c }) samples draws = .ok out' ∧
      out'.logz = out.logz + c / T ∧ out'.info = out.info ∧ out'.ess = out.ess ∧
      out'.post = out.post ∧ out'.postInfo = out.postInfo.map (· + c / T) ∧
      out'.weights = out.weights.map (fun w => (w.1, w.2.1 + c, w.2.2)) := by
  obtain ⟨logp, logx, lP, top, idx, hm, hev, ht, hpick, hps, hpi, hle, hpost, hw⟩ := postprocess_ok h
  obtain ⟨hl1, hl2⟩ := massArrays_length hm
  have h0 : logp ≠ [] := by
    rintro rfl
    simp [evidence, logsumexp] at hev
  have hll : (info.map (PInfo.shift c)).map (fun p => p.logl / T)
      = (info.map (fun p => p.logl / T)).map (· + c / T) := by
    rw [List.map_map, List.map_map]
    apply List.map_congr_left
    intro p _
    simp [PInfo.shift, add_div]
  have hev' := evidence_shift h0 (by simpa using hl1) (c / T) hev
  have hpi' : mapRes (fun w => Res.get ((info.map (fun p => p.logl / T)).map (· + c / T)) w) idx
      = .ok (out.postInfo.map (· + c / T)) := by
    have := mapRes_eq_ok hpi
    clear hpi hpost hpick
    generalize out.postInfo = q at this ⊢
    induction this with
    | nil => rfl
    | cons hab _ ih =>
      simp only [mapRes, List.map_cons]
      rw [Res.get_eq_ok] at hab
      rw [show Res.get ((info.map (fun p => p.logl / T)).map (· + c / T)) _ = .ok _ from
        Res.get_eq_ok.2 (by rw [List.getElem?_map, hab]; rfl)]
      rw [Res.ok_bind, ih, Res.ok_bind]
  refine ⟨{ out with logz := out.logz + c / T, postInfo := out.postInfo.map (· + c / T),
                     weights := out.weights.map (fun w => (w.1, w.2.1 + c, w.2.2)) }, ?_, rfl, rfl, rfl,
    rfl, rfl, rfl⟩
  unfold postprocess
  have e1 : (levels.map fun l : PLevel => { l with logl := l.logl + c }) = levels.map (PLevel.shift c) := rfl
  have e2 : (info.map fun p : PInfo => { p with logl := p.logl + c }) = info.map (PInfo.shift c) := rfl
  rw [e1, e2, massArrays_shift, hm]
  simp only [Res.ok_bind]
  rw [hll, hev']
  simp only [Res.ok_bind]
  rw [Res.get_eq_ok.2 ht]
  simp only [Res.ok_bind]
  rw [hpick]
  simp only [Res.ok_bind]
  rw [hpi']
  simp only [Res.ok_bind, List.length_map]
  rw [readLines, if_neg (by omega)]
  simp only [Res.ok_bind]
  rw [hpost]
  simp only [Res.ok_bind, Res.ok.injEq]
  rw [hw, hps]
  congr 1
  rw [List.map_zipWith, List.zip_map_right, List.zipWith_map_left]
  rfl

/-- C21: the effective sample size lies between 1 and the number of samples, so at least one and at
most that many posterior samples are produced, and the information is non-negative. -/
theorem C21_ess {α : Type} (T : ℝ) (levels : List PLevel) (info : List PInfo)
    (samples : List α) (draws : List (ℕ × ℝ)) (out : PostOut α)
    (h : postprocess T levels info samples draws = .ok out) :
    1 ≤ out.ess ∧ out.ess ≤ info.length ∧ 1 ≤ out.numPs ∧ out.numPs ≤ info.length ∧
      out.post.length = out.numPs ∧ out.postInfo.length = out.numPs ∧ 0 ≤ out.info := by
  obtain ⟨logp, logx, lP, top, idx, hm, hev, ht, hpick, hps, hpi, hle, hpost, hw⟩ := postprocess_ok h
  obtain ⟨hl1, hl2⟩ := massArrays_length hm
  have h0 : logp ≠ [] := by
    rintro rfl
    simp [evidence, logsumexp] at hev
  have hinfo := info_nonneg h0 (by simpa using hl1) hev
  obtain ⟨z', h', e', lP', heq, hl, hs, hlP, hz, hh, he⟩ :=
    evidence_ok (logl := info.map (fun p => p.logl / T)) h0 (by simpa using hl1)
  rw [hev] at heq
  simp only [Res.ok.injEq, Prod.mk.injEq] at heq
  obtain ⟨rfl, rfl, rfl, rfl⟩ := heq
  have hn0 : (0 : ℝ) < lP.length := by
    have := List.length_pos_iff.2 h0
    rw [hl]; exact_mod_cast this
  have hlP0 : lP ≠ [] := by
    rintro rfl; simp at hn0
  have h1 : 1 ≤ out.ess := by
    rw [he]; exact Real.one_le_exp (entropy_nonneg hs)
  have h2 : out.ess ≤ info.length := by
    rw [he, ← hl1, ← hl]
    calc _ ≤ Real.exp (Real.log lP.length) := Real.exp_le_exp.2 (entropy_le_log hlP0 hs)
      _ = _ := Real.exp_log hn0
  have hidx := (pickMany_ok hpick).1
  refine ⟨h1, h2, ?_, ?_, ?_, ?_, hinfo⟩
  · rw [hps]; exact Nat.le_floor (by simpa using h1)
  · rw [hps]; exact Nat.floor_le_of_le h2
  · rw [← (mapRes_eq_ok hpost).length_eq, copyAll_eq, List.length_map, hidx, hps]
  · rw [← (mapRes_eq_ok hpi).length_eq, hidx, hps]

/-- C22: every posterior sample is the saved sample of some index, its printed likelihood is the
(tempered) likelihood of that same sample, and it was chosen with a uniform number below the weight
written for it. -/
theorem C22_samples {α : Type} (T : ℝ) (levels : List PLevel) (info : List PInfo)
    (samples : List α) (draws : List (ℕ × ℝ)) (hu : ∀ d ∈ draws, 0 ≤ d.2 ∧ d.2 < 1) (out : PostOut α)
    (h : postprocess T levels info samples draws = .ok out) (k : ℕ) (x : α) (hx : out.post[k]? = some x) :
    ∃ (w : ℕ) (p : PInfo) (u : ℝ) (lx : Option ℝ) (wt : ℝ), w < info.length ∧ samples[w]? = some x ∧
      info[w]? = some p ∧
      out.postInfo[k]? = some (p.logl / T) ∧ (w, u) ∈ draws ∧
      out.weights[w]? = some (lx, p.logl, wt) ∧ u < wt ∧ wt ≤ 1 := by
  obtain ⟨logp, logx, lP, top, idx, hm, hev, ht, hpick, hps, hpi, hle, hpost, hw⟩ := postprocess_ok h
  obtain ⟨hl1, hl2⟩ := massArrays_length hm
  have hF := mapRes_eq_ok hpost
  rw [copyAll_eq] at hF
  have hG := mapRes_eq_ok hpi
  obtain ⟨hk, rfl⟩ := List.getElem?_eq_some_iff.1 hx
  have hk' : k < idx.length := by
    have := hF.length_eq; simp at this; omega
  have h1 := (List.forall₂_iff_get.1 hF).2 k (by simpa using hk') hk
  have h2 := (List.forall₂_iff_get.1 hG).2 k hk' (by rw [← hG.length_eq]; exact hk')
  simp only [List.get_eq_getElem, List.getElem_map] at h1 h2
  rw [Res.get_eq_ok, List.getElem?_map, Option.map_eq_some_iff] at h2
  obtain ⟨p, hp, hp2⟩ := h2
  have hs : (samples.take info.length)[idx[k]]? = some out.post[k] := by
    cases hc : (samples.take info.length)[idx[k]]? with
    | none => rw [hc] at h1; simp [finiteOr] at h1
    | some y => rw [hc] at h1; simp [finiteOr] at h1; rw [h1]
  obtain ⟨y, u, hy, hmem, hacc⟩ := (pickMany_ok hpick).2 idx[k] (List.getElem_mem hk')
  have hwlt : idx[k] < info.length := (List.getElem?_eq_some_iff.1 hp).1
  rw [List.getElem?_take_of_lt hwlt] at hs
  refine ⟨idx[k], p, u, logx[idx[k]], Real.exp y, hwlt, hs, hp, ?_, hmem, ?_, ?_, ?_⟩
  · rw [hp2]; exact List.getElem?_eq_getElem _
  · rw [hw, List.getElem?_zipWith_eq_some]
    refine ⟨(logx[idx[k]], p), y, ?_, hy, rfl⟩
    rw [List.getElem?_zip_eq_some]
    exact ⟨List.getElem?_eq_getElem _, hp⟩
  · unfold acceptPost at hacc
    rcases of_decide_eq_true hacc with h | h
    · rw [h]; exact Real.exp_pos y
    · rcases eq_or_lt_of_le (hu _ hmem).1 with h0 | h0
      · have : u = 0 := h0.symm
        rw [this]; exact Real.exp_pos y
      · exact (Real.log_lt_iff_lt_exp h0).1 h
  · rw [List.getElem?_map, Option.map_eq_some_iff] at hy
    obtain ⟨v, hv, rfl⟩ := hy
    have := (maxLoop_ge top lP).2 v (List.mem_of_getElem? hv)
    exact Real.exp_le_one_iff.2 (by linarith)

/-- C22: with prior masses that decrease, a complete sample file, and random numbers that keep
returning to every sample, post-processing succeeds: it neither hangs nor exits nor is undefined. -/
theorem C22_terminates {α : Type} (T : ℝ) (levels : List PLevel) (hg : GoodLevels levels)
    (info : List PInfo) (h0 : info ≠ []) (hlev : ∀ p ∈ info, p.level < levels.length)
    (samples : List α) (hs : info.length ≤ samples.length)
    (draws : List (ℕ × ℝ)) (hr : ∀ d ∈ draws, d.1 < info.length ∧ 0 ≤ d.2 ∧ d.2 < 1)
    (hmany : ∀ w < info.length, info.length ≤ draws.countP (fun d => d.1 = w)) :
    ∃ out, postprocess T levels info samples draws = .ok out := by
  obtain ⟨logp, logx, hm, hl1, hl2, -⟩ := massArrays_spec hg hlev
  have hp0 : logp ≠ [] := by
    rintro rfl
    exact h0 (List.length_eq_zero_iff.1 (by simpa using hl1.symm))
  obtain ⟨z, h, e, lP, hev, hl, hsum, -, -, -, he⟩ :=
    evidence_ok (logl := info.map (fun p => p.logl / T)) hp0 (by simpa using hl1)
  have hn0 : 0 < info.length := List.length_pos_iff.2 h0
  have hlP0 : 0 < lP.length := by omega
  set top := lP[0] with htop
  have hmx : maxLoop top lP ∈ lP := by
    rcases maxLoop_mem top lP with h | h
    · rw [h]; exact List.getElem_mem _
    · exact h
  obtain ⟨b, hb, hbm⟩ := List.mem_iff_getElem.1 hmx
  have hess : ⌊e⌋₊ ≤ info.length := by
    apply Nat.floor_le_of_le
    have hne : lP ≠ [] := List.length_pos_iff.1 hlP0
    rw [he, ← hl1, ← hl]
    calc _ ≤ Real.exp (Real.log lP.length) := Real.exp_le_exp.2 (entropy_le_log hne hsum)
      _ = _ := Real.exp_log (by exact_mod_cast hlP0)
  obtain ⟨idx, hidx⟩ := pickMany_progress (logP := lP.map (· - maxLoop top lP)) (n := ⌊e⌋₊) (ds := draws)
    (fun d hd => by simp [hl, hl1, (hr d hd).1]) (fun d => d.1 = b)
    (by
      intro d hd hdb
      have hdb : d.1 = b := by simpa using hdb
      refine ⟨0, ?_, ?_⟩
      · rw [hdb, List.getElem?_map, List.getElem?_eq_getElem hb, hbm]; simp
      · unfold acceptPost
        apply decide_eq_true
        rcases eq_or_lt_of_le (hr d hd).2.1 with h0 | h0
        · exact Or.inl h0.symm
        · exact Or.inr (Real.log_neg h0 (hr d hd).2.2))
    (le_trans hess (hmany b (by omega)))
  have hin : ∀ w ∈ idx, w < info.length := by
    intro w hw
    obtain ⟨x, _, hx, -⟩ := (pickMany_ok hidx).2 w hw
    have := (List.getElem?_eq_some_iff.1 hx).1
    simpa [hl, hl1] using this
  obtain ⟨pi, hpi, -⟩ := mapRes_forall2 (f := fun w => Res.get (info.map (fun p => p.logl / T)) w)
    (P := fun _ _ => True) idx (fun w hw => ⟨_, Res.get_of_lt (by simpa using hin w hw), trivial⟩)
  obtain ⟨post, hpost, -⟩ := mapRes_forall2 (f := finiteOr) (P := fun _ _ => True)
    (copyAll idx (samples.take info.length)) (by
      intro q hq
      rw [copyAll_eq] at hq
      obtain ⟨w, hw, rfl⟩ := List.mem_map.1 hq
      have := hin w hw
      rw [List.getElem?_eq_getElem (by simp; omega)]
      exact ⟨_, rfl, trivial⟩)
  unfold postprocess
  rw [hm]
  simp only [Res.ok_bind]
  rw [hev]
  simp only [Res.ok_bind]
  rw [Res.get_of_lt hlP0]
  simp only [Res.ok_bind]
  rw [hidx]
  simp only [Res.ok_bind]
  rw [hpi]
  simp only [Res.ok_bind]
  rw [readLines, if_neg (by omega)]
  simp only [Res.ok_bind]
  rw [hpost]
  exact ⟨_, rfl⟩

/-- The levels, samples and random numbers of the examples. -/
noncomputable def exLevels : List PLevel := [⟨0, -10⟩, ⟨-1, 0⟩]
noncomputable def exInfo : List PInfo := [⟨0, -5, 1/2⟩, ⟨0, -3, 1/3⟩, ⟨1, 2, 1/4⟩]
noncomputable def exPDraws : List (ℕ × ℝ) :=
  [(0, 1/2), (0, 1/3), (0, 1/4), (1, 1/2), (1, 1/3), (1, 1/4), (2, 1/2), (2, 1/3), (2, 1/4)]

theorem exLevels_good : GoodLevels exLevels := by
  refine ⟨by simp [exLevels], ?_⟩
  intro l hl
  unfold logXFloor
  simp only [exLevels, List.mem_cons, List.not_mem_nil, or_false] at hl
  have h10 : (1 : ℝ) < 10 ^ 300 := one_lt_pow₀ (by norm_num) (by norm_num)
  generalize (10 : ℝ) ^ 300 = t at h10 ⊢
  rcases hl with rfl | rfl <;> simp only <;> linarith

/-- The hypotheses of C20, C21 and C22 are met: post-processing of the example succeeds. -/
theorem ex_postprocess : ∃ out, postprocess 1 exLevels exInfo ["a", "b", "c"] exPDraws = .ok out := by
  apply C22_terminates 1 exLevels exLevels_good
  · simp [exInfo]
  · simp [exInfo, exLevels]
  · simp [exInfo]
  · intro d hd
    simp only [exPDraws, List.mem_cons, List.not_mem_nil, or_false] at hd
    rcases hd with rfl | rfl | rfl | rfl | rfl | rfl | rfl | rfl | rfl <;>
      norm_num [exInfo]
  · intro w hw
    simp only [exInfo, List.length_cons, List.length_nil] at hw ⊢
    interval_cases w <;> simp [exPDraws]

example : ∃ out : PostOut String, 1 ≤ out.ess ∧ out.ess ≤ 3 := by
  obtain ⟨out, h⟩ := ex_postprocess
  have := C21_ess _ _ _ _ _ _ h
  refine ⟨out, this.1, ?_⟩
  simpa [exInfo] using this.2.1

/-- C23 (part): with strictly decreasing prior masses every sample gets a finite prior mass, positive
and at most half the mass between its level and the next one, and, if it is not the only sample in
its level, a finite log X strictly between those of its level and the next.
Missing: log X of a sample that is alone in its level, for which it is false (`C23_lone_sample`). -/
theorem C23_prior_mass_partial (levels : List PLevel) (hg : GoodLevels levels) (info : List PInfo)
    (hlev : ∀ p ∈ info, p.level < levels.length) :
    ∃ logp logx, massArrays levels info = .ok (logp, logx) ∧
      logp.length = info.length ∧ logx.length = info.length ∧
      ∀ (j : ℕ) (p : PInfo), info[j]? = some p → ∃ (l : PLevel) (q lo : ℝ),
        levels[sandwich levels p]? = some l ∧
        lo = ((levels[sandwich levels p + 1]?).map PLevel.logX).getD (-10 ^ 300) ∧
        logp[j]? = some q ∧ Real.exp q ≤ (Real.exp l.logX - Real.exp lo) / 2 ∧
        ∀ (j' : ℕ) (p' : PInfo), info[j']? = some p' → j' ≠ j →
          sandwich levels p' = sandwich levels p →
          ∃ x, logx[j]? = some (some x) ∧ lo < x ∧ x < l.logX := by
  obtain ⟨logp, logx, hm, hl1, hl2, hspec⟩ := massArrays_spec hg hlev
  refine ⟨logp, logx, hm, hl1, hl2, ?_⟩
  intro j p hp
  obtain ⟨k, l, q, m, h1, h2, h3, h4, h5, h6, h7⟩ := hspec j p hp
  have hlo : lowerX levels (sandwich levels p)
      = ((levels[sandwich levels p + 1]?).map PLevel.logX).getD (-10 ^ 300) := by
    unfold lowerX
    split
    · rename_i h
      rw [List.getElem?_eq_none (by omega)]
      rfl
    · cases levels[sandwich levels p + 1]? <;> rfl
  obtain ⟨hk, hkm⟩ := List.getElem?_eq_some_iff.1 h2
  refine ⟨l, q, _, h1, hlo, h6, ?_, ?_⟩
  · obtain ⟨r, lf, q', _, _, hq', _, ha, hb, hc⟩ := logpAt_spec (lowerX_lt hg h1) hk
    rw [h7] at hq'; cases hq'
    rw [hc]
    have := Real.exp_le_exp.2 ha
    have := Real.exp_le_exp.2 hb
    linarith
  · intro j' p' hp' hjj hsw
    obtain ⟨k', l', q', m', -, g2, g3, -, -, -, -⟩ := hspec j' p' hp'
    rw [hsw] at g2
    have hk' := (List.getElem?_eq_some_iff.1 g2).1
    have : k ≠ k' := by
      rintro rfl
      rw [h2] at g2; cases g2
      exact hjj (g3.symm.trans h3)
    obtain ⟨x, hx, hx1, hx2, -⟩ := logxAt_spec (lowerX_lt hg h1)
      (n := (sortedOf levels info (sandwich levels p)).length) (j := k) (by omega) hk
    exact ⟨x, by rw [h5, hx], hx1, hx2⟩

/-- C23 fails for a sample that is alone in its level: its log X is not a number. -/
theorem C23_lone_sample (levels : List PLevel) (hg : GoodLevels levels) (info : List PInfo)
    (hlev : ∀ p ∈ info, p.level < levels.length) (j : ℕ) (p : PInfo) (hp : info[j]? = some p)
    (halone : ∀ (j' : ℕ) (p' : PInfo), info[j']? = some p' → j' ≠ j →
      sandwich levels p' ≠ sandwich levels p) :
    ∃ logp logx, massArrays levels info = .ok (logp, logx) ∧ logx[j]? = some none := by
  obtain ⟨logp, logx, hm, hl1, hl2, hspec⟩ := massArrays_spec hg hlev
  refine ⟨logp, logx, hm, ?_⟩
  obtain ⟨k, l, q, m, h1, h2, h3, h4, h5, h6, h7⟩ := hspec j p hp
  have hone : (sortedOf levels info (sandwich levels p)).length = 1 := by
    have hk := (List.getElem?_eq_some_iff.1 h2).1
    by_contra hne
    have hall : ∀ s ∈ sortedOf levels info (sandwich levels p), s.id = j := by
      intro s hs
      obtain ⟨p', hp', hf, -⟩ := mem_membersOf.1 ((msortC_perm _ _).mem_iff.1 hs)
      by_contra hsj
      exact halone s.id p' hp' hsj hf
    have hnd : ((sortedOf levels info (sandwich levels p)).map PSample.id).Nodup :=
      ((msortC_perm _ _).map _).nodup_iff.2 (membersOf_nodup _ _ _)
    generalize sortedOf levels info (sandwich levels p) = S at *
    match S, hne, hk, hall, hnd with
    | a :: b :: S, _, _, hall, hnd =>
      have ha := hall a (by simp)
      have hb := hall b (by simp)
      simp [ha, hb] at hnd
    | [], _, hk, _, _ => simp at hk
    | [a], hne, _, _, _ => simp at hne
  rw [h5, hone]
  simp [logxAt, uFrac]

/-- In the example the third sample is alone in its level. -/
example : ∃ logp logx, massArrays exLevels exInfo = .ok (logp, logx) ∧ logx[2]? = some none := by
  apply C23_lone_sample exLevels exLevels_good exInfo (by simp [exInfo, exLevels]) 2 ⟨1, 2, 1/4⟩
    (by simp [exInfo])
  intro j' p' hp' hne
  have hj : j' < 3 := by
    have := (List.getElem?_eq_some_iff.1 hp').1
    simpa [exInfo] using this
  interval_cases j'
  · simp only [exInfo, List.getElem?_cons_zero, Option.some.injEq] at hp'
    subst hp'
    simp [sandwich, exLevels, sandwichGo]
  · simp only [exInfo, List.getElem?_cons_succ, List.getElem?_cons_zero, Option.some.injEq] at hp'
    subst hp'
    simp [sandwich, exLevels, sandwichGo]
  · exact absurd rfl hne

/-- C23: within a level, the higher the likelihood the smaller the enclosed prior mass. -/
theorem C23_order (levels : List PLevel) (hg : GoodLevels levels) (info : List PInfo)
    (hlev : ∀ p ∈ info, p.level < levels.length) (logp : List ℝ) (logx : List (Option ℝ))
    (hm : massArrays levels info = .ok (logp, logx)) (i j : ℕ) (p q : PInfo)
    (hp : info[i]? = some p) (hq : info[j]? = some q) (hpq : p.logl < q.logl)
    (hsw : sandwich levels p = sandwich levels q) :
    ∃ x y, logx[i]? = some (some x) ∧ logx[j]? = some (some y) ∧ y < x := by
  obtain ⟨logp', logx', hm', hl1, hl2, hspec⟩ := massArrays_spec hg hlev
  rw [hm] at hm'; cases hm'
  obtain ⟨k, l, _, m, h1, h2, h3, h4, h5, -, -⟩ := hspec i p hp
  obtain ⟨k', l', _, m', g1, g2, g3, g4, g5, -, -⟩ := hspec j q hq
  rw [← hsw] at g1 g2 g5
  rw [h1] at g1; cases g1
  obtain ⟨hk, hkm⟩ := List.getElem?_eq_some_iff.1 h2
  obtain ⟨hk', hkm'⟩ := List.getElem?_eq_some_iff.1 g2
  have hkk : k < k' := by
    by_contra hlt
    rcases Nat.lt_or_eq_of_le (not_lt.1 hlt) with hlt | heq
    · have := List.pairwise_iff_getElem.1 (sortedOf_sorted levels info (sandwich levels p)) k' k hk' hk hlt
      rw [hkm, hkm', h4, g4] at this
      linarith
    · subst heq
      rw [hkm] at hkm'
      rw [hkm', g4] at h4
      linarith
  have hx := lowerX_lt hg h1
  obtain ⟨x, ex, -, -, hx3⟩ := logxAt_spec hx
    (n := (sortedOf levels info (sandwich levels p)).length) (j := k) (by omega) hk
  obtain ⟨y, ey, -, -, hy3⟩ := logxAt_spec hx
    (n := (sortedOf levels info (sandwich levels p)).length) (j := k') (by omega) hk'
  refine ⟨x, y, by rw [h5, ex], by rw [g5, ey], ?_⟩
  rw [← Real.exp_lt_exp, hx3, hy3]
  have hE := Real.exp_lt_exp.2 hx
  set n := (sortedOf levels info (sandwich levels p)).length
  have : ((n : ℝ) - k') / (n + 1) < ((n : ℝ) - k) / (n + 1) := by
    apply div_lt_div_of_pos_right _ (by positivity)
    have : (k : ℝ) < k' := by exact_mod_cast hkk
    linarith
  nlinarith

/-- C23: the level of a sample is the highest one whose threshold is below its likelihood, or the level
it was in when saved, whichever is higher. -/
theorem C23_sandwich (levels : List PLevel) (p : PInfo) (i : ℕ) (l : PLevel)
    (hl : levels[i]? = some l) :
    (sandwich levels p < i → p.logl ≤ l.logl) ∧
    (sandwich levels p = i → i = p.level ∨ p.level < i ∧ l.logl < p.logl) ∧
    p.level ≤ sandwich levels p := by
  have key : ∀ (ls : List PLevel) (j acc : ℕ), (∀ (k : ℕ) (l : PLevel), ls[k]? = some l →
      levels[j + k]? = some l) → acc ≤ j → (acc = p.level ∨ p.level < acc ∧ ∀ l, levels[acc]? = some l →
        l.logl < p.logl) → p.level ≤ j →
      (acc ≤ sandwichGo p.logl j acc ls) ∧
      (∀ (k : ℕ) (l : PLevel), ls[k]? = some l → sandwichGo p.logl j acc ls < j + k → p.logl ≤ l.logl) ∧
      (sandwichGo p.logl j acc ls = p.level ∨ p.level < sandwichGo p.logl j acc ls ∧
        ∀ l, levels[sandwichGo p.logl j acc ls]? = some l → l.logl < p.logl) := by
    intro ls
    induction ls with
    | nil =>
      intro j acc _ hj hacc _
      exact ⟨le_rfl, by simp, hacc⟩
    | cons a ls ih =>
      intro j acc hls hj hacc hpj
      simp only [sandwichGo]
      have ha : levels[j]? = some a := hls 0 a (by simp)
      by_cases hgt : p.logl > a.logl
      · rw [if_pos hgt]
        obtain ⟨i1, i2, i3⟩ := ih (j + 1) j (by
          intro k l hk; rw [show j + 1 + k = j + (k + 1) by omega]; exact hls (k + 1) l (by simpa using hk))
          (by omega) (by
            rcases eq_or_lt_of_le hpj with h | h
            · exact Or.inl h.symm
            · exact Or.inr ⟨h, fun l hl => by rw [ha] at hl; cases hl; exact hgt⟩) (by omega)
        refine ⟨le_trans hj i1, ?_, i3⟩
        intro k l hk hlt
        cases k with
        | zero => omega
        | succ k => exact i2 k l (by simpa using hk) (by omega)
      · rw [if_neg hgt]
        obtain ⟨i1, i2, i3⟩ := ih (j + 1) acc (by
          intro k l hk; rw [show j + 1 + k = j + (k + 1) by omega]; exact hls (k + 1) l (by simpa using hk))
          (by omega) hacc (by omega)
        refine ⟨i1, ?_, i3⟩
        intro k l hk hlt
        cases k with
        | zero => simp at hk; subst hk; exact not_lt.1 hgt
        | succ k => exact i2 k l (by simpa using hk) (by omega)
  obtain ⟨k1, k2, k3⟩ := key (levels.drop p.level) p.level p.level
    (by intro k l hk; rwa [List.getElem?_drop] at hk) le_rfl (Or.inl rfl) le_rfl
  refine ⟨?_, ?_, k1⟩
  · intro hlt
    have hle : p.level ≤ i := by
      have : p.level ≤ sandwich levels p := k1
      omega
    refine k2 (i - p.level) l ?_ ?_
    · rw [List.getElem?_drop, show p.level + (i - p.level) = i by omega]; exact hl
    · have : sandwich levels p < i := hlt
      unfold sandwich at this
      omega
  · rintro rfl
    rcases k3 with h | ⟨h1, h2⟩
    · exact Or.inl h
    · exact Or.inr ⟨h1, h2 l hl⟩

example : sandwich exLevels ⟨0, 2, 1/4⟩ = 1 := by
  simp [sandwich, exLevels, sandwichGo]

/-- The recalculated level of a sample exists, and the sample's likelihood reaches its threshold. -/
theorem C23_recalculated (levels : List PLevel) (h0 : levels ≠ [])
    (logl tie : ℝ) (r : ℕ)
    (hfirst : ∀ l, levels[0]? = some l → l.logl ≤ logl) :
    ∃ l, levels[(recalcInfo levels logl tie r).level]? = some l ∧ l.logl ≤ logl := by
  classical
  have hj : firstAbove levels logl ≠ 0 := by
    unfold firstAbove
    cases levels with
    | nil => exact absurd rfl h0
    | cons a ls =>
      have := hfirst a (by simp)
      rw [List.findIdx_cons]
      simp [not_lt.2 this]
  have hle : firstAbove levels logl ≤ levels.length := by unfold firstAbove; exact List.findIdx_le_length
  simp only [recalcInfo, if_neg hj]
  have hlt : r % firstAbove levels logl < firstAbove levels logl := Nat.mod_lt _ (by omega)
  refine ⟨levels[r % firstAbove levels logl], List.getElem?_eq_getElem _, ?_⟩
  have := List.not_of_lt_findIdx (p := fun l => decide (logl < l.logl)) (xs := levels)
    (i := r % firstAbove levels logl) (by unfold firstAbove at hlt ⊢; convert hlt using 2)
  simpa using this

/-- C22, from the files: whatever levels the sample-information file names, also levels that no longer exist,
post-processing succeeds; with too few lines in a file it exits. -/
theorem C22_file {α : Type} (T : ℝ) (numLevels numSamples : ℕ) (levelFile : List PLevel) (infoFile : List PInfo)
    (sampleFile : List α) (draws : List (ℕ × ℝ)) (h1 : 0 < numLevels) (h2 : 0 < numSamples)
    (hg : GoodLevels levelFile) (hs : numSamples ≤ sampleFile.length)
    (hr : ∀ d ∈ draws, d.1 < numSamples ∧ 0 ≤ d.2 ∧ d.2 < 1)
    (hmany : ∀ w < numSamples, numSamples ≤ draws.countP (fun d => d.1 = w)) :
    (numLevels ≤ levelFile.length → numSamples ≤ infoFile.length →
      ∃ out, postprocessFile T numLevels numSamples levelFile infoFile sampleFile draws = .ok out) ∧
    (levelFile.length < numLevels ∨ infoFile.length < numSamples →
      postprocessFile T numLevels numSamples levelFile infoFile sampleFile draws = .exit) := by
  constructor
  · intro hl hi
    unfold postprocessFile
    rw [readLines, if_neg (by omega)]
    simp only [Res.ok_bind]
    rw [readLines, if_neg (by omega)]
    simp only [Res.ok_bind]
    have hlen : ((infoFile.take numSamples).map (clampInfo numLevels)).length = numSamples := by
      simp; omega
    apply C22_terminates
    · exact ⟨hg.1.sublist (List.take_sublist _ _), fun l hl => hg.2 l (List.mem_of_mem_take hl)⟩
    · intro h0
      rw [h0] at hlen; simp at hlen; omega
    · intro p hp
      obtain ⟨q, -, rfl⟩ := List.mem_map.1 hp
      rw [List.length_take, min_eq_left hl]
      unfold clampInfo
      split
      · simp only; omega
      · omega
    · rw [hlen]; exact hs
    · rw [hlen]; exact hr
    · rw [hlen]; exact hmany
  · intro h
    unfold postprocessFile readLines
    rcases lt_or_ge levelFile.length numLevels with hl | hl
    · rw [if_pos hl]; rfl
    · have hi : infoFile.length < numSamples := by omega
      rw [if_neg (by omega), if_pos hi]; rfl

/-- A sample saved in level 7 of a run whose level file has two lines. -/
example : ∃ out, postprocessFile 1 2 3 exLevels [⟨0, -5, 1/2⟩, ⟨0, -3, 1/3⟩, ⟨7, 2, 1/4⟩] ["a", "b", "c"] exPDraws = .ok out := by
  refine (C22_file 1 2 3 exLevels _ _ exPDraws (by norm_num) (by norm_num) exLevels_good (by simp) ?_ ?_).1
    (by simp [exLevels]) (by simp)
  · intro d hd
    simp only [exPDraws, List.mem_cons, List.not_mem_nil, or_false] at hd
    rcases hd with rfl | rfl | rfl | rfl | rfl | rfl | rfl | rfl | rfl <;> norm_num
  · intro w hw
    interval_cases w <;> simp [exPDraws]

end Mica
