import Verif.Props.Digits

/-!
# C144: what the evidence is a sum of

Post-processing ranks the samples of each level, gives each rank an interval of log X and applies a trapezoidal rule
(cdnest/dnestpostprocess.c:247-305).  What comes out does not depend on the ranks.
-/

namespace Mica

/-- The samples that lie between the thresholds of level `i` and the next. -/
noncomputable def inLevel (levels : List PLevel) (info : List PInfo) (i : ℕ) : List PInfo := info.filter fun p => sandwich levels p = i

/-- Prior mass between level `i` and the next; behind the last level lies `exp(-1e300)`. -/
noncomputable def gapMass (levels : List PLevel) (i : ℕ) : ℝ :=
  ((levels[i]?).elim 0 fun l => Real.exp l.logX) - (levels[i + 1]?).elim (Real.exp (-10 ^ 300)) fun l => Real.exp l.logX

/-- Mean of the likelihoods (to the power `1/T`) of the samples of level `i`. -/
noncomputable def meanIn (T : ℝ) (levels : List PLevel) (info : List PInfo) (i : ℕ) : ℝ :=
  ((inLevel levels info i).map fun p => Real.exp (p.logl / T)).sum / (inLevel levels info i).length

theorem rankShare_eq {n j : ℕ} (hj : j < n) : rankShare n j = 1 / (n + 1) := by
  have hn : (0 : ℝ) < (n : ℝ) + 1 := by positivity
  unfold rankShare
  by_cases h0 : j = 0
  · subst h0
    rw [if_pos rfl]
    by_cases h1 : 0 = n - 1
    · have : n = 1 := by omega
      subst this
      norm_num
    · rw [if_neg h1]
      push_cast
      field_simp
      ring
  · have hc : ((j - 1 : ℕ) : ℝ) = j - 1 := by rw [Nat.cast_sub (by omega)]; simp
    rw [if_neg h0, hc]
    by_cases h1 : j = n - 1
    · rw [if_pos h1]
      have : (n : ℝ) = j + 1 := by exact_mod_cast (by omega : n = j + 1)
      rw [this] at hn ⊢
      field_simp
      ring
    · rw [if_neg h1]
      push_cast
      field_simp
      ring

theorem gapMass_eq {levels : List PLevel} {i : ℕ} {l : PLevel} (h : levels[i]? = some l) :
    gapMass levels i = Real.exp l.logX - Real.exp (lowerX levels i) := by
  have hi := (List.getElem?_eq_some_iff.1 h).1
  unfold gapMass lowerX logXFloor
  rw [h, Option.elim_some]
  by_cases hl : i = levels.length - 1
  · rw [if_pos hl, List.getElem?_eq_none (by omega), Option.elim_none]
  · rw [if_neg hl, List.getElem?_eq_getElem (by omega : i + 1 < levels.length)]
    rfl

theorem gapMass_pos {levels : List PLevel} (hg : GoodLevels levels) {i : ℕ} (hi : i < levels.length) : 0 < gapMass levels i := by
  have h : levels[i]? = some levels[i] := List.getElem?_eq_getElem hi
  rw [gapMass_eq h]
  exact sub_pos.2 (Real.exp_lt_exp.2 (lowerX_lt hg h))

theorem sorted_length (levels : List PLevel) (info : List PInfo) (i : ℕ) : (sortedOf levels info i).length = (inLevel levels info i).length := by
  have := (rankedLogl_perm_filter levels info i).1.length_eq
  simpa [rankedLogl, inLevel] using this

/-- Prior mass of a sample, not normalised. -/
noncomputable def share (levels : List PLevel) (info : List PInfo) (p : PInfo) : ℝ :=
  gapMass levels (sandwich levels p) / ((inLevel levels info (sandwich levels p)).length + 1)

/-- All samples of a level get the same mass. -/
theorem mass_share {levels : List PLevel} (hg : GoodLevels levels) {info : List PInfo} (hlev : ∀ p ∈ info, p.level < levels.length)
    {logp : List ℝ} {logx : List (Option ℝ)} (hm : massArrays levels info = .ok (logp, logx)) :
    logp.map Real.exp = info.map (share levels info) := by
  obtain ⟨lp, lx, hm', hl1, -, hspec⟩ := massArrays_spec hg hlev
  rw [hm] at hm'
  cases hm'
  refine List.ext_getElem (by simp [hl1]) fun j h1 h2 => ?_
  have hj : j < info.length := by simpa using h2
  obtain ⟨k, l, q, m, e1, e2, -, -, -, e6, e7⟩ := hspec j info[j] (List.getElem?_eq_getElem hj)
  have hk := (List.getElem?_eq_some_iff.1 e2).1
  obtain ⟨p, e8, e9⟩ := logpAt_share (lowerX_lt hg e1) hk
  rw [e7] at e8
  cases e8
  rw [List.getElem_map, List.getElem_map, (List.getElem?_eq_some_iff.1 e6).2, e9, rankShare_eq hk, share, gapMass_eq e1, sorted_length]
  ring

theorem share_pos {levels : List PLevel} (hg : GoodLevels levels) {info : List PInfo} (hlev : ∀ p ∈ info, p.level < levels.length)
    {p : PInfo} (hp : p ∈ info) : 0 < share levels info p :=
  div_pos (gapMass_pos hg (sandwich_lt (hlev p hp))) (by positivity)

/-- Evidence and weights in terms of the masses. -/
theorem postprocess_mass {α : Type} {T : ℝ} {levels : List PLevel} {info : List PInfo} {samples : List α} {draws : List (ℕ × ℝ)}
    {out : PostOut α} (h : postprocess T levels info samples draws = .ok out) :
    ∃ logp logx, massArrays levels info = .ok (logp, logx) ∧ logp ≠ [] ∧
      Real.exp out.logz = (List.zipWith (fun m p => m * Real.exp (PInfo.logl p / T)) (logp.map Real.exp) info).sum / (logp.map Real.exp).sum ∧
      ∃ k, 0 < k ∧ out.weights.map (·.2.2) = List.zipWith (fun m p => k * (m * Real.exp (PInfo.logl p / T))) (logp.map Real.exp) info := by
  obtain ⟨logp, logx, lP, top, idx, hm, hev, ht, -, -, -, -, -, hw⟩ := postprocess_ok h
  obtain ⟨hl1, hl2⟩ := massArrays_length hm
  have h0 : logp ≠ [] := by
    rintro rfl
    simp [evidence, logsumexp] at hev
  obtain ⟨z', h', e', lP', heq, hl, hs, hlP, hz, hh, he⟩ :=
    evidence_ok (logl := info.map (fun p => p.logl / T)) h0 (by simpa using hl1)
  rw [hev] at heq
  simp only [Res.ok.injEq, Prod.mk.injEq] at heq
  obtain ⟨rfl, rfl, rfl, rfl⟩ := heq
  set S := (logp.map Real.exp).sum with hS
  have hS0 : 0 < S := sum_exp_pos h0
  set lp := logp.map (· - Real.log S) with hlp
  have hne : List.zipWith (· + ·) lp (info.map (fun p => p.logl / T)) ≠ [] := by
    intro h
    have := congrArg List.length h
    simp only [List.length_zipWith, hlp, List.length_map, List.length_nil] at this
    have := List.length_pos_iff.2 h0
    omega
  have hsum : (List.zipWith (· + ·) lp (info.map (fun p => p.logl / T))).map Real.exp
      = (List.zipWith (fun m p => m * Real.exp (PInfo.logl p / T)) (logp.map Real.exp) info).map (· / S) := by
    rw [List.map_zipWith, List.zipWith_map_right, hlp, List.zipWith_map_left, List.map_zipWith, List.zipWith_map_left]
    congr 1
    funext x y
    rw [Real.exp_add, Real.exp_sub, Real.exp_log hS0]
    ring
  refine ⟨logp, logx, hm, h0, ?_, Real.exp (-maxLoop top lP - out.logz) / S, div_pos (Real.exp_pos _) hS0, ?_⟩
  · rw [hz, Real.exp_log (sum_exp_pos hne), hsum]
    simp only [div_eq_mul_inv]
    rw [List.sum_map_mul_right, List.map_id']
  · rw [hw, List.map_zipWith]
    have hlen : (logx.zip info).length = (lP.map (· - maxLoop top lP)).length := by
      simp [hl2, hl, hl1]
    have : ∀ (a : List (Option ℝ × PInfo)) (b : List ℝ), a.length = b.length →
        List.zipWith (fun (_ : Option ℝ × PInfo) y => Real.exp y) a b = b.map Real.exp := by
      intro a
      induction a with
      | nil => intro b hb; cases b <;> simp_all
      | cons x a ih => intro b hb; cases b with
        | nil => simp at hb
        | cons y b => simp [ih b (by simpa using hb)]
    rw [this _ _ hlen]
    generalize maxLoop top lP = M
    have e : (lP.map (· - M)).map Real.exp =
        ((List.zipWith (· + ·) lp (info.map (fun p => p.logl / T))).map Real.exp).map (· * Real.exp (-M - out.logz)) := by
      rw [hlP, List.map_map, List.map_map, List.map_map]
      refine List.map_congr_left fun x _ => ?_
      simp only [Function.comp]
      rw [← Real.exp_add]
      congr 1
      ring
    rw [e, hsum, List.map_map, List.map_zipWith]
    congr 1
    funext m p
    simp only [Function.comp]
    ring

theorem zipWith_map_self {α β γ : Type} (f : β → α → γ) (g : α → β) (l : List α) :
    List.zipWith f (l.map g) l = l.map fun x => f (g x) x := by
  induction l with
  | nil => rfl
  | cons a l ih => simp [ih]

/-- **C144 (weights).** All samples between the thresholds of a level and the next carry the same prior mass, the mass between the two
levels over one more than the number of these samples: the posterior weight of a sample is proportional to that mass and its likelihood.
Ranks and tiebreakers have no influence. -/
theorem C144_weights {α : Type} (T : ℝ) (levels : List PLevel) (hg : GoodLevels levels) (info : List PInfo)
    (hlev : ∀ p ∈ info, p.level < levels.length) (samples : List α) (draws : List (ℕ × ℝ)) (out : PostOut α)
    (h : postprocess T levels info samples draws = .ok out) :
    ∃ k, 0 < k ∧ out.weights.map (·.2.2) = info.map fun p =>
      k * (gapMass levels (sandwich levels p) / ((inLevel levels info (sandwich levels p)).length + 1) * Real.exp (p.logl / T)) := by
  obtain ⟨logp, logx, hm, -, -, k, hk, hw⟩ := postprocess_mass h
  rw [mass_share hg hlev hm, zipWith_map_self] at hw
  exact ⟨k, hk, hw⟩

theorem logz_share {α : Type} {T : ℝ} {levels : List PLevel} (hg : GoodLevels levels) {info : List PInfo}
    (hlev : ∀ p ∈ info, p.level < levels.length) {samples : List α} {draws : List (ℕ × ℝ)} {out : PostOut α}
    (h : postprocess T levels info samples draws = .ok out) :
    info ≠ [] ∧ Real.exp out.logz =
      (info.map fun p => share levels info p * Real.exp (p.logl / T)).sum / (info.map (share levels info)).sum := by
  obtain ⟨logp, logx, hm, h0, hz, -⟩ := postprocess_mass h
  have hs := mass_share hg hlev hm
  rw [hs, zipWith_map_self] at hz
  refine ⟨?_, hz⟩
  rintro rfl
  exact h0 (by simpa using hs)

/-- A sum over the samples, level by level. -/
theorem sum_by_key (f : ℕ → PInfo → ℝ) (key : PInfo → ℕ) (n : ℕ) (info : List PInfo) (h : ∀ p ∈ info, key p < n) :
    (info.map fun p => f (key p) p).sum = ∑ i ∈ Finset.range n, ((info.filter fun p => key p = i).map (f i)).sum := by
  induction info with
  | nil => simp
  | cons p info ih =>
    rw [List.map_cons, List.sum_cons, ih fun q hq => h q (List.mem_cons_of_mem _ hq)]
    have e : ∀ i ∈ Finset.range n, (((p :: info).filter fun p => key p = i).map (f i)).sum =
        (if key p = i then f (key p) p else 0) + ((info.filter fun p => key p = i).map (f i)).sum := by
      intro i _
      rw [List.filter_cons]
      by_cases hi : key p = i
      · simp [hi]
      · simp [hi]
    rw [Finset.sum_congr rfl e, Finset.sum_add_distrib, Finset.sum_ite_eq, if_pos (Finset.mem_range.2 (h p (by simp)))]

/-- **C144 (evidence).** The reported evidence is a mean over the levels of the mean likelihoods in them, weighted with the prior mass
between the levels times `n/(n+1)` for a level with `n` samples; levels without samples do not count. -/
theorem C144_evidence {α : Type} (T : ℝ) (levels : List PLevel) (hg : GoodLevels levels) (info : List PInfo)
    (hlev : ∀ p ∈ info, p.level < levels.length) (samples : List α) (draws : List (ℕ × ℝ)) (out : PostOut α)
    (h : postprocess T levels info samples draws = .ok out) :
    let w := fun i : ℕ => gapMass levels i * ((inLevel levels info i).length / ((inLevel levels info i).length + 1))
    0 < ∑ i ∈ Finset.range levels.length, w i ∧
      Real.exp out.logz = (∑ i ∈ Finset.range levels.length, w i * meanIn T levels info i) / ∑ i ∈ Finset.range levels.length, w i := by
  intro w
  obtain ⟨hne, hz⟩ := logz_share hg hlev h
  have hd : (info.map (share levels info)).sum = ∑ i ∈ Finset.range levels.length, w i := by
    refine (sum_by_key (fun i _ => gapMass levels i / ((inLevel levels info i).length + 1)) (sandwich levels) levels.length info
      fun p hp => sandwich_lt (hlev p hp)).trans ?_
    refine Finset.sum_congr rfl fun i _ => ?_
    rw [show info.filter (fun p => sandwich levels p = i) = inLevel levels info i from rfl, List.map_const', List.sum_replicate, nsmul_eq_mul]
    simp only [w]
    ring
  have hn : (info.map fun p => share levels info p * Real.exp (p.logl / T)).sum =
      ∑ i ∈ Finset.range levels.length, w i * meanIn T levels info i := by
    refine (sum_by_key (fun i p => gapMass levels i / ((inLevel levels info i).length + 1) * Real.exp (p.logl / T)) (sandwich levels)
      levels.length info fun p hp => sandwich_lt (hlev p hp)).trans ?_
    refine Finset.sum_congr rfl fun i _ => ?_
    rw [show info.filter (fun p => sandwich levels p = i) = inLevel levels info i from rfl, List.sum_map_mul_left]
    simp only [w, meanIn]
    by_cases h0 : (inLevel levels info i).length = 0
    · rw [List.length_eq_zero_iff.1 h0]
      simp
    · have : ((inLevel levels info i).length : ℝ) ≠ 0 := by exact_mod_cast h0
      field_simp
  refine ⟨?_, by rw [hz, hn, hd]⟩
  rw [← hd]
  refine List.sum_pos _ (fun x hx => ?_) (by simpa using hne)
  obtain ⟨p, hp, rfl⟩ := List.mem_map.1 hx
  exact share_pos hg hlev hp

/-- **C144 (accuracy).** If every level with samples has `N` samples or more, the reported log-evidence differs by at most
`log(1 + 1/N)` from the sum over these levels of prior mass times mean likelihood, divided by their total mass. -/
theorem C144_accuracy {α : Type} (T : ℝ) (levels : List PLevel) (hg : GoodLevels levels) (info : List PInfo)
    (hlev : ∀ p ∈ info, p.level < levels.length) (N : ℕ) (hN : 0 < N)
    (hmany : ∀ i < levels.length, inLevel levels info i ≠ [] → N ≤ (inLevel levels info i).length)
    (samples : List α) (draws : List (ℕ × ℝ)) (out : PostOut α) (h : postprocess T levels info samples draws = .ok out) :
    let used := (Finset.range levels.length).filter fun i => inLevel levels info i ≠ []
    |out.logz - Real.log ((∑ i ∈ used, gapMass levels i * meanIn T levels info i) / ∑ i ∈ used, gapMass levels i)| ≤
      Real.log (1 + 1 / N) := by
  intro used
  obtain ⟨hB', hz⟩ := C144_evidence T levels hg info hlev samples draws out h
  set w := fun i : ℕ => gapMass levels i * ((inLevel levels info i).length / ((inLevel levels info i).length + 1) : ℝ) with hw
  have hzero : ∀ i, inLevel levels info i = [] → w i = 0 := fun i hi => by simp [hw, hi]
  have hres : ∀ f : ℕ → ℝ, ∑ i ∈ Finset.range levels.length, w i * f i = ∑ i ∈ used, w i * f i := by
    intro f
    refine (Finset.sum_filter_of_ne (p := fun i => inLevel levels info i ≠ []) fun i _ hne he => hne ?_).symm
    rw [hzero i he, zero_mul]
  have hone : ∑ i ∈ Finset.range levels.length, w i = ∑ i ∈ used, w i := by
    have := hres fun _ => 1
    simpa using this
  have hg0 : ∀ i ∈ used, 0 < gapMass levels i := fun i hi => gapMass_pos hg (Finset.mem_range.1 (Finset.mem_filter.1 hi).1)
  have hm0 : ∀ i ∈ used, 0 < meanIn T levels info i := by
    intro i hi
    have hne := (Finset.mem_filter.1 hi).2
    refine div_pos (List.sum_pos _ (fun x hx => ?_) (by simpa using hne)) (by exact_mod_cast List.length_pos_iff.2 hne)
    obtain ⟨p, -, rfl⟩ := List.mem_map.1 hx
    exact Real.exp_pos _
  have hN' : (0 : ℝ) < N := by exact_mod_cast hN
  set c : ℝ := 1 + 1 / N with hc
  have hc0 : 0 < c := by positivity
  have hlow : ∀ i ∈ used, gapMass levels i ≤ c * w i ∧ w i ≤ gapMass levels i := by
    intro i hi
    have hne := (Finset.mem_filter.1 hi).2
    have hn : (N : ℝ) ≤ (inLevel levels info i).length := by
      exact_mod_cast hmany i (Finset.mem_range.1 (Finset.mem_filter.1 hi).1) hne
    have hg1 := hg0 i hi
    simp only [hw, hc]
    generalize ((inLevel levels info i).length : ℝ) = n at hn
    have hn0 : 0 < n := lt_of_lt_of_le hN' hn
    constructor
    · have : 1 ≤ (1 + 1 / (N : ℝ)) * (n / (n + 1)) := by
        rw [mul_div_assoc', le_div_iff₀ (by positivity)]
        have : 1 ≤ 1 / (N : ℝ) * n := by rw [one_div_mul_eq_div, le_div_iff₀ hN']; linarith
        linarith
      nlinarith
    · have : n / (n + 1) ≤ 1 := by rw [div_le_one (by positivity)]; linarith
      nlinarith
  have hune : used.Nonempty := by
    by_contra hcon
    rw [Finset.not_nonempty_iff_eq_empty] at hcon
    rw [hone, hcon] at hB'
    simp at hB'
  rw [hres, hone] at hz
  rw [hone] at hB'
  set A := ∑ i ∈ used, gapMass levels i * meanIn T levels info i with hA
  set B := ∑ i ∈ used, gapMass levels i with hB
  set A' := ∑ i ∈ used, w i * meanIn T levels info i with hA'
  set B' := ∑ i ∈ used, w i with hBB
  have hA0 : 0 < A := Finset.sum_pos (fun i hi => mul_pos (hg0 i hi) (hm0 i hi)) hune
  have hB0 : 0 < B := Finset.sum_pos hg0 hune
  have a1 : A' ≤ A := Finset.sum_le_sum fun i hi => mul_le_mul_of_nonneg_right (hlow i hi).2 (hm0 i hi).le
  have b1 : B' ≤ B := Finset.sum_le_sum fun i hi => (hlow i hi).2
  have a2 : A ≤ c * A' := by
    rw [hA', Finset.mul_sum]
    exact Finset.sum_le_sum fun i hi => by
      have := mul_le_mul_of_nonneg_right (hlow i hi).1 (hm0 i hi).le
      linarith
  have b2 : B ≤ c * B' := by
    rw [hBB, Finset.mul_sum]
    exact Finset.sum_le_sum fun i hi => (hlow i hi).1
  have hA0' : 0 < A' := by
    by_contra hcon
    nlinarith
  have hzl : out.logz = Real.log A' - Real.log B' := by rw [← Real.log_exp out.logz, hz, Real.log_div hA0'.ne' hB'.ne']
  rw [hzl, Real.log_div hA0.ne' hB0.ne']
  have l1 := Real.log_le_log hA0' a1
  have l2 := Real.log_le_log hB' b1
  have l3 := Real.log_le_log hA0 a2
  have l4 := Real.log_le_log hB0 b2
  rw [Real.log_mul hc0.ne' hA0'.ne'] at l3
  rw [Real.log_mul hc0.ne' hB'.ne'] at l4
  rw [abs_le]
  constructor <;> linarith

/-- The masses between the levels add up to that of the first level. -/
theorem gapMass_sum (l : PLevel) (levels : List PLevel) :
    ∑ i ∈ Finset.range (l :: levels).length, gapMass (l :: levels) i = Real.exp l.logX - Real.exp (-10 ^ 300) := by
  induction levels generalizing l with
  | nil => simp [gapMass]
  | cons k levels ih =>
    rw [List.length_cons, Finset.sum_range_succ']
    have e : ∀ i, gapMass (l :: k :: levels) (i + 1) = gapMass (k :: levels) i := fun i => by simp [gapMass]
    simp only [e, ih k]
    simp [gapMass]

/-- **C144 (all levels used).** If the first level has prior mass 1 and every level has `N` samples or more, the reported evidence is,
within a factor `1 + 1/N`, the sum over all levels of prior mass times mean likelihood, divided by `1 - exp(-1e300)`. -/
theorem C144_all {α : Type} (T : ℝ) (l : PLevel) (ls : List PLevel) (hg : GoodLevels (l :: ls)) (h1 : l.logX = 0) (info : List PInfo)
    (hlev : ∀ p ∈ info, p.level < (l :: ls).length) (N : ℕ) (hN : 0 < N)
    (hmany : ∀ i < (l :: ls).length, N ≤ (inLevel (l :: ls) info i).length)
    (samples : List α) (draws : List (ℕ × ℝ)) (out : PostOut α) (h : postprocess T (l :: ls) info samples draws = .ok out) :
    |out.logz - Real.log ((∑ i ∈ Finset.range (l :: ls).length, gapMass (l :: ls) i * meanIn T (l :: ls) info i) /
      (1 - Real.exp (-10 ^ 300)))| ≤ Real.log (1 + 1 / N) := by
  have := C144_accuracy T (l :: ls) hg info hlev N hN (fun i hi _ => hmany i hi) samples draws out h
  have hu : ((Finset.range (l :: ls).length).filter fun i => inLevel (l :: ls) info i ≠ []) = Finset.range (l :: ls).length := by
    refine Finset.filter_true_of_mem fun i hi => ?_
    have := hmany i (Finset.mem_range.1 hi)
    exact List.length_pos_iff.1 (by omega)
  simp only [hu] at this
  rwa [gapMass_sum, h1, Real.exp_zero] at this

theorem ex_sandwich : exInfo.map (sandwich exLevels) = [0, 0, 1] := by
  have n3 : ¬ ((0 : ℝ) < -5) := by norm_num
  have n4 : ¬ ((0 : ℝ) < -3) := by norm_num
  simp [exInfo, exLevels, sandwich, sandwichGo, n3, n4]

/-- Two levels with two samples and one: the evidence is within a factor 2 of the sum over both levels. -/
example : ∃ out : PostOut String, postprocess 1 exLevels exInfo ["a", "b", "c"] exPDraws = .ok out ∧
    |out.logz - Real.log ((∑ i ∈ Finset.range 2, gapMass exLevels i * meanIn 1 exLevels exInfo i) / (1 - Real.exp (-10 ^ 300)))| ≤
      Real.log (1 + 1 / 1) := by
  obtain ⟨out, ho⟩ := ex_postprocess
  refine ⟨out, ho, ?_⟩
  have hs := ex_sandwich
  simp only [exInfo, List.map_cons, List.map_nil, List.cons.injEq, and_true] at hs
  have := C144_all 1 ⟨0, -10⟩ [⟨-1, 0⟩] exLevels_good rfl exInfo (by simp [exInfo]) 1 one_pos ?_ ["a", "b", "c"] exPDraws out ho
  · simpa [exLevels] using this
  · intro i hi
    have e : inLevel [⟨0, -10⟩, ⟨-1, 0⟩] exInfo i = inLevel exLevels exInfo i := rfl
    rw [e]
    simp only [List.length_cons, List.length_nil] at hi
    interval_cases i <;> simp only [inLevel, exInfo, List.filter_cons, hs.1, hs.2.1, hs.2.2] <;> simp

end Mica
