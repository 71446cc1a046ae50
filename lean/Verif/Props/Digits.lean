import Verif.Props.RowOrder
import Verif.Props.SampleText
import Mathlib.Analysis.Complex.ExponentialBounds

/-!
# C104: the digits printed and the evidence

The evidence is calculated from log-likelihoods that went through a file with seven digits.
-/

namespace Mica

/-- Log prior mass, not normalised, at rank `x.2` of level `x.1`; `r` gives the ranked likelihoods. -/
noncomputable def rankMass (levels : List PLevel) (r : ℕ → List ℝ) (x : ℕ × ℕ) : ℝ := (rankVal levels r x).2.1

/-- The evidence in terms of ranks. -/
theorem logz_ranks {α : Type} {T : ℝ} {levels : List PLevel} (hg : GoodLevels levels) {info : List PInfo}
    (hlev : ∀ p ∈ info, p.level < levels.length) {samples : List α} {draws : List (ℕ × ℝ)} {out : PostOut α}
    (h : postprocess T levels info samples draws = .ok out) :
    ranks (rankedLogl levels info) levels.length ≠ [] ∧
    out.logz = Real.log ((ranks (rankedLogl levels info) levels.length).map fun x =>
        Real.exp (rankMass levels (rankedLogl levels info) x + (rankedLogl levels info x.1).getD x.2 0 / T)).sum -
      Real.log ((ranks (rankedLogl levels info) levels.length).map fun x =>
        Real.exp (rankMass levels (rankedLogl levels info) x)).sum := by
  obtain ⟨logp, logx, lP, top, idx, hm, hev, ht, -, hn, -, -, -, hw⟩ := postprocess_ok h
  obtain ⟨hl1, hl2⟩ := massArrays_length hm
  obtain ⟨_, _, e, _, _, hperm⟩ := rows_ranks hg hlev
  rw [hm] at e; cases e
  have hc : ∀ (inf : List PInfo) (lx : List (Option ℝ)) (lp : List ℝ), lp.length = inf.length → lx.length = inf.length →
      lp = (lx.zip (lp.zip (inf.map PInfo.logl))).map (fun a => a.2.1) ∧
      inf.map (fun p => p.logl / T) = (lx.zip (lp.zip (inf.map PInfo.logl))).map (fun a => a.2.2 / T) := by
    intro inf
    induction inf with
    | nil => intro lx lp e1 e2; cases lp <;> cases lx <;> simp_all
    | cons p inf ih =>
      intro lx lp e1 e2
      cases lp with
      | nil => simp at e1
      | cons a lp =>
        cases lx with
        | nil => simp at e2
        | cons b lx =>
          obtain ⟨i1, i2⟩ := ih lx lp (by simpa using e1) (by simpa using e2)
          constructor
          · simp only [List.map_cons, List.zip_cons_cons]; rw [← i1]
          · simp only [List.map_cons, List.zip_cons_cons]; rw [← i2]
  obtain ⟨c1, c2⟩ := hc info logx logp hl1 hl2
  have h0 : logp ≠ [] := by
    rintro rfl
    simp [evidence, logsumexp] at hev
  set t := logx.zip (logp.zip (info.map PInfo.logl)) with htdef
  have ht0 : t ≠ [] := by
    intro e
    rw [e] at c1
    exact h0 c1
  rw [c2, c1, evidence_map t _ _ ht0] at hev
  simp only [Res.ok.injEq, Prod.mk.injEq] at hev
  have hr0 : ranks (rankedLogl levels info) levels.length ≠ [] := by
    intro e
    rw [e] at hperm
    exact ht0 hperm.eq_nil
  refine ⟨hr0, ?_⟩
  rw [← hev.1]
  have s1 : (t.map fun a => Real.exp a.2.1).sum = ((ranks (rankedLogl levels info) levels.length).map fun x =>
        Real.exp (rankMass levels (rankedLogl levels info) x)).sum := by
    have := (hperm.map fun a => Real.exp a.2.1).sum_eq
    rw [List.map_map] at this
    exact this
  have s2 : (t.map fun a => Real.exp (a.2.1 + a.2.2 / T)).sum = ((ranks (rankedLogl levels info) levels.length).map fun x =>
        Real.exp (rankMass levels (rankedLogl levels info) x + (rankedLogl levels info x.1).getD x.2 0 / T)).sum := by
    have := (hperm.map fun a => Real.exp (a.2.1 + a.2.2 / T)).sum_eq
    rw [List.map_map] at this
    exact this
  rw [← s1, ← s2]
  set s := Real.log (t.map fun a => Real.exp a.2.1).sum with hs
  have e2 : (t.map fun a => Real.exp (a.2.1 - s + a.2.2 / T)) = t.map fun a => Real.exp (a.2.1 + a.2.2 / T) * Real.exp (-s) := by
    refine List.map_congr_left fun a _ => ?_
    rw [← Real.exp_add]; congr 1; ring
  have pos : 0 < (t.map fun a => Real.exp (a.2.1 + a.2.2 / T)).sum := by
    refine List.sum_pos _ (fun x hx => ?_) (by simpa using ht0)
    obtain ⟨a, -, rfl⟩ := List.mem_map.1 hx
    exact Real.exp_pos _
  rw [e2, List.sum_map_mul_right, Real.log_mul pos.ne' (Real.exp_pos _).ne', Real.log_exp]
  ring

theorem logsum_near {ι : Type} (t : List ι) (h0 : t ≠ []) (f g : ι → ℝ) {δ : ℝ} (h : ∀ x ∈ t, |f x - g x| ≤ δ) :
    |Real.log (t.map fun x => Real.exp (f x)).sum - Real.log (t.map fun x => Real.exp (g x)).sum| ≤ δ := by
  have pos : ∀ f : ι → ℝ, 0 < (t.map fun x => Real.exp (f x)).sum := fun f => by
    refine List.sum_pos _ (fun x hx => ?_) (by simpa using h0)
    obtain ⟨a, -, rfl⟩ := List.mem_map.1 hx
    exact Real.exp_pos _
  have one : ∀ f g : ι → ℝ, (∀ x ∈ t, |f x - g x| ≤ δ) →
      Real.log (t.map fun x => Real.exp (f x)).sum ≤ δ + Real.log (t.map fun x => Real.exp (g x)).sum := by
    intro f g h
    have : (t.map fun x => Real.exp (f x)).sum ≤ (t.map fun x => Real.exp δ * Real.exp (g x)).sum := by
      refine List.sum_le_sum fun x hx => ?_
      rw [← Real.exp_add]
      exact Real.exp_le_exp.2 (by have := (abs_le.1 (h x hx)).2; linarith)
    rw [List.sum_map_mul_left] at this
    calc Real.log (t.map fun x => Real.exp (f x)).sum ≤ Real.log (Real.exp δ * (t.map fun x => Real.exp (g x)).sum) :=
          Real.log_le_log (pos f) this
      _ = _ := by rw [Real.log_mul (Real.exp_pos _).ne' (pos g).ne', Real.log_exp]
  rw [abs_le]
  have h1 := one f g h
  have h2 := one g f fun x hx => by rw [abs_sub_comm]; exact h x hx
  constructor <;> linarith

/-- Ranked likelihoods of rows changed by a monotone function which moves no row to another level. -/
theorem rankedLogl_map {levels levels' : List PLevel} {info : List PInfo} {P : PInfo → PInfo} {ρ : ℝ → ℝ}
    (hρ : ∀ x y, x ≤ y → ρ x ≤ ρ y) (hP : ∀ p ∈ info, (P p).logl = ρ p.logl)
    (hs : ∀ p ∈ info, sandwich levels' (P p) = sandwich levels p) (i : ℕ) :
    rankedLogl levels' (info.map P) i = (rankedLogl levels info i).map ρ := by
  have hso : ∀ lv inf, (rankedLogl lv inf i).Pairwise (· ≤ ·) := fun lv inf =>
    List.pairwise_map.2 (sortedOf_sorted lv inf i)
  have hp : ∀ lv inf, (rankedLogl lv inf i).Perm ((inf.filter fun p => sandwich lv p = i).map PInfo.logl) := by
    intro lv inf
    rw [← membersOf_logl]
    exact (msortC_perm _ _).map _
  have e : ((info.map P).filter fun p => sandwich levels' p = i).map PInfo.logl =
      ((info.filter fun p => sandwich levels p = i).map PInfo.logl).map ρ := by
    clear hso hp
    induction info with
    | nil => rfl
    | cons p info ih =>
      have ih' := ih (fun q hq => hP q (by simp [hq])) (fun q hq => hs q (by simp [hq]))
      have h1 := hs p (by simp)
      have h2 := hP p (by simp)
      simp only [List.map_cons, List.filter_cons, h1]
      by_cases h : sandwich levels p = i
      · simp only [h, decide_true, if_true, List.map_cons, ih', h2]
      · simp only [h, decide_false, Bool.false_eq_true, if_false, ih']
  refine List.Perm.eq_of_pairwise' (hso _ _) (List.pairwise_map.2 ((hso levels info).imp fun h => hρ _ _ h)) ?_
  have h1 := hp levels' (info.map P)
  rw [e] at h1
  exact h1.trans ((hp levels info).map ρ).symm

/-- The share of rank `j` of `n` in the prior mass between two levels. -/
noncomputable def rankShare (n j : ℕ) : ℝ :=
  ((if j = 0 then 1 else ((n : ℝ) - (j - 1 : ℕ)) / (n + 1)) - (if j = n - 1 then 0 else ((n : ℝ) - (j + 1 : ℕ)) / (n + 1))) / 2

/-- The mass of a rank is its share of the mass between the levels. -/
theorem logpAt_share {xmax xmin : ℝ} (hx : xmin < xmax) {n j : ℕ} (hj : j < n) :
    ∃ p, logpAt xmax xmin n j = some p ∧ Real.exp p = (Real.exp xmax - Real.exp xmin) * rankShare n j := by
  obtain ⟨r, l, p, er, el, ep, -, -, -, h⟩ := logpAt_spec hx hj
  refine ⟨p, ep, ?_⟩
  have hr : Real.exp r = Real.exp xmin + (Real.exp xmax - Real.exp xmin) * (if j = 0 then 1 else ((n : ℝ) - (j - 1 : ℕ)) / (n + 1)) := by
    by_cases h : j = 0
    · simp only [rightAt, h, ne_eq, not_true_eq_false, if_false, Option.some.injEq] at er
      rw [if_pos h, ← er]; ring
    · obtain ⟨x, e, -, -, h3⟩ := logxAt_spec hx (n := n) (j := j - 1) (by omega) (by omega)
      simp only [rightAt, h, ne_eq, not_false_eq_true, if_true, e, Option.some.injEq] at er
      rw [if_neg h, ← er, h3]
  have hl : Real.exp l = Real.exp xmin + (Real.exp xmax - Real.exp xmin) * (if j = n - 1 then 0 else ((n : ℝ) - (j + 1 : ℕ)) / (n + 1)) := by
    by_cases h : j = n - 1
    · simp only [leftAt, h, ne_eq, not_true_eq_false, if_false, Option.some.injEq] at el
      rw [if_pos h, ← el]; ring
    · obtain ⟨x, e, -, -, h3⟩ := logxAt_spec hx (n := n) (j := j + 1) (by omega) (by omega)
      simp only [leftAt, h, ne_eq, not_false_eq_true, if_true, e, Option.some.injEq] at el
      rw [if_neg h, ← el, h3]
  rw [h, hr, hl, rankShare]
  ring

/-- Errors `ε` of two logarithms at least `G` apart and the logarithm of the difference. -/
theorem log_diff_le {a b a' b' ε G : ℝ} (hG : 0 < G) (hab' : G ≤ a' - b') (hab : b < a) (ha : |a - a'| ≤ ε) (hb : |b - b'| ≤ ε) :
    Real.log (Real.exp a - Real.exp b) ≤ ε * (1 + 2 / G) + Real.log (Real.exp a' - Real.exp b') := by
  have hε : 0 ≤ ε := (abs_nonneg _).trans ha
  have pos : 0 < Real.exp a - Real.exp b := sub_pos.2 (Real.exp_lt_exp.2 hab)
  have pos' : 0 < Real.exp a' - Real.exp b' := sub_pos.2 (Real.exp_lt_exp.2 (by linarith))
  rw [← Real.log_exp (ε * (1 + 2 / G)), ← Real.log_mul (Real.exp_pos _).ne' pos'.ne']
  refine Real.log_le_log pos ?_
  have h1 : Real.exp a ≤ Real.exp a' * Real.exp ε := by
    rw [← Real.exp_add]; exact Real.exp_le_exp.2 (by linarith [(abs_le.1 ha).2])
  have h2 : Real.exp a' * Real.exp ε * (Real.exp (b' - a') * Real.exp (-(2 * ε))) ≤ Real.exp b := by
    rw [← Real.exp_add, ← Real.exp_add, ← Real.exp_add]; exact Real.exp_le_exp.2 (by linarith [(abs_le.1 hb).1])
  have h3 : Real.exp b' = Real.exp a' * Real.exp (b' - a') := by rw [← Real.exp_add]; congr 1; ring
  have h4 : Real.exp (ε * (1 + 2 / G)) = Real.exp ε * Real.exp (2 * ε / G) := by rw [← Real.exp_add]; congr 1; ring
  have h5 := Real.add_one_le_exp (-(2 * ε))
  have h6 := Real.add_one_le_exp (2 * ε / G)
  have h7 : G * Real.exp (b' - a') ≤ 1 - Real.exp (b' - a') := by
    have e : Real.exp (b' - a') * Real.exp (a' - b') = 1 := by rw [← Real.exp_add]; simp
    have := Real.add_one_le_exp (a' - b')
    nlinarith [Real.exp_pos (b' - a')]
  have h8 : 2 * ε * Real.exp (b' - a') ≤ 2 * ε / G * (1 - Real.exp (b' - a')) := by
    rw [div_mul_eq_mul_div, le_div_iff₀ hG]
    nlinarith
  have hA := mul_pos (Real.exp_pos a') (Real.exp_pos ε)
  have hE : 0 ≤ 1 - Real.exp (b' - a') := (mul_nonneg hG.le (Real.exp_pos _).le).trans h7
  have hE0 := Real.exp_pos (b' - a')
  have key : 1 - Real.exp (b' - a') * Real.exp (-(2 * ε)) ≤ Real.exp (2 * ε / G) * (1 - Real.exp (b' - a')) := by
    have k1 : Real.exp (b' - a') * (1 - 2 * ε) ≤ Real.exp (b' - a') * Real.exp (-(2 * ε)) :=
      mul_le_mul_of_nonneg_left (by linarith) hE0.le
    have k2 : (2 * ε / G + 1) * (1 - Real.exp (b' - a')) ≤ Real.exp (2 * ε / G) * (1 - Real.exp (b' - a')) :=
      mul_le_mul_of_nonneg_right h6 hE
    linarith
  have := mul_le_mul_of_nonneg_left key hA.le
  rw [h3, h4]
  calc Real.exp a - Real.exp b ≤ Real.exp a' * Real.exp ε - Real.exp a' * Real.exp ε * (Real.exp (b' - a') * Real.exp (-(2 * ε))) := by
        linarith
    _ = Real.exp a' * Real.exp ε * (1 - Real.exp (b' - a') * Real.exp (-(2 * ε))) := by ring
    _ ≤ Real.exp a' * Real.exp ε * (Real.exp (2 * ε / G) * (1 - Real.exp (b' - a'))) := this
    _ = _ := by ring

/-- Levels whose log X are at least `G` apart. -/
def GapLevels (G : ℝ) (levels : List PLevel) : Prop :=
  levels.Pairwise (fun a b => b.logX + G ≤ a.logX) ∧ ∀ l ∈ levels, logXFloor + G ≤ l.logX

theorem GapLevels.good {G : ℝ} (hG : 0 < G) {levels : List PLevel} (h : GapLevels G levels) : GoodLevels levels :=
  ⟨h.1.imp fun h => by linarith, fun l hl => by linarith [h.2 l hl]⟩

theorem GapLevels.lower {G : ℝ} {levels : List PLevel} (h : GapLevels G levels) {i : ℕ} (hi : i < levels.length) :
    lowerX levels i + G ≤ (levels.getD i ⟨0, 0⟩).logX := by
  rw [List.getD_eq_getElem _ _ hi]
  unfold lowerX
  split
  · exact h.2 _ (List.getElem_mem hi)
  · rename_i h1
    rw [List.getElem?_eq_getElem (by omega : i + 1 < levels.length)]
    exact List.pairwise_iff_getElem.1 h.1 i (i + 1) hi (by omega) (by omega)

theorem lowerX_near {levels levels' : List PLevel} (hl : levels'.length = levels.length) {ε : ℝ} (hε : 0 ≤ ε)
    (h : ∀ i, |(levels'.getD i ⟨0, 0⟩).logX - (levels.getD i ⟨0, 0⟩).logX| ≤ ε) (i : ℕ) :
    |lowerX levels' i - lowerX levels i| ≤ ε := by
  unfold lowerX
  rw [hl]
  split
  · simpa using hε
  · have := h (i + 1)
    by_cases hi : i + 1 < levels.length
    · rw [List.getD_eq_getElem _ _ hi, List.getD_eq_getElem _ _ (by omega)] at this
      rw [List.getElem?_eq_getElem hi, List.getElem?_eq_getElem (by omega)]
      exact this
    · rw [List.getElem?_eq_none (by omega), List.getElem?_eq_none (by omega)]
      simpa using hε

theorem rankMass_near {levels levels' : List PLevel} {G ε : ℝ} (hG : 0 < G) (hg : GapLevels G levels) (hg' : GapLevels G levels')
    (hl : levels'.length = levels.length) (hε : 0 ≤ ε)
    (h : ∀ i, |(levels'.getD i ⟨0, 0⟩).logX - (levels.getD i ⟨0, 0⟩).logX| ≤ ε) {r r' : ℕ → List ℝ}
    (hr : ∀ i, (r' i).length = (r i).length) {x : ℕ × ℕ} (hx : x.1 < levels.length) (hk : x.2 < (r x.1).length) :
    |rankMass levels' r' x - rankMass levels r x| ≤ ε * (1 + 2 / G) := by
  have g1 := hg.lower hx
  have g2 := hg'.lower (by omega : x.1 < levels'.length)
  have hlow := lowerX_near hl hε h x.1
  have htop := h x.1
  simp only [rankMass, rankVal, hr]
  generalize (levels.getD x.1 ⟨0, 0⟩).logX = a at *
  generalize (levels'.getD x.1 ⟨0, 0⟩).logX = a' at *
  generalize lowerX levels x.1 = b at *
  generalize lowerX levels' x.1 = b' at *
  obtain ⟨p, e, hp⟩ := logpAt_share (by linarith : b < a) hk
  obtain ⟨p', e', hp'⟩ := logpAt_share (by linarith : b' < a') hk
  rw [e, e', Option.getD_some, Option.getD_some]
  have d1 : 0 < Real.exp a - Real.exp b := sub_pos.2 (Real.exp_lt_exp.2 (by linarith))
  have d2 : 0 < Real.exp a' - Real.exp b' := sub_pos.2 (Real.exp_lt_exp.2 (by linarith))
  have hs : 0 < rankShare (r x.1).length x.2 := by
    have := Real.exp_pos p
    rw [hp] at this
    exact (mul_pos_iff_of_pos_left d1).1 this
  have q : p = Real.log (Real.exp a - Real.exp b) + Real.log (rankShare (r x.1).length x.2) := by
    rw [← Real.log_mul d1.ne' hs.ne', ← hp, Real.log_exp]
  have q' : p' = Real.log (Real.exp a' - Real.exp b') + Real.log (rankShare (r x.1).length x.2) := by
    rw [← Real.log_mul d2.ne' hs.ne', ← hp', Real.log_exp]
  have k1 := log_diff_le hG (by linarith : G ≤ a - b) (by linarith : b' < a') htop hlow
  rw [abs_sub_comm] at htop hlow
  have k2 := log_diff_le hG (by linarith : G ≤ a' - b') (by linarith : b < a) htop hlow
  rw [q, q', abs_le]
  constructor <;> linarith

/-- **C104 (part).** The log-evidence calculated from the printed files differs from the one for the unrounded numbers by at most the
largest error of printing the log-likelihoods, half a unit of the seventh digit, and by what twelve digits of log X can contribute:
`L/10^11 (1 + 4/G)` for levels with log X down to `-L` and `G` apart.  `levels'` are the levels as printed.
Missing: this holds if no sample comes to lie on another side of a threshold by printing; otherwise it is false (`C104_fails`). -/
theorem C104_evidence_partial {α β : Type} (T : ℝ) (hT : 0 < T) (levels levels' : List PLevel) (G L : ℝ) (hG : 0 < G)
    (hg : GapLevels G levels) (hL : ∀ l ∈ levels, |l.logX| ≤ L) (hLG : 2 * L / 10 ^ 11 ≤ G)
    (hX : levels'.map PLevel.logX = levels.map fun l => sciVal 11 l.logX) (info : List PInfo)
    (hlev : ∀ p ∈ info, p.level < levels.length) (P : PInfo → PInfo)
    (hP : ∀ p ∈ info, (P p).level = p.level ∧ (P p).logl = sciVal 6 p.logl)
    (hs : ∀ p ∈ info, sandwich levels' (P p) = sandwich levels p) (B : ℝ) (hB : ∀ p ∈ info, |p.logl| ≤ B)
    (samples : List α) (samples' : List β) (draws draws' : List (ℕ × ℝ)) (out : PostOut α) (out' : PostOut β)
    (h : postprocess T levels info samples draws = .ok out)
    (h' : postprocess T levels' (info.map P) samples' draws' = .ok out') :
    |out'.logz - out.logz| ≤ 1 / 2 / 10 ^ 6 * B / T + L / 10 ^ 11 * (1 + 4 / G) := by
  have hl : levels'.length = levels.length := by simpa using congrArg List.length hX
  have hpt : ∀ i, i < levels.length → (levels'.getD i ⟨0, 0⟩).logX = sciVal 11 (levels.getD i ⟨0, 0⟩).logX := by
    intro i hi
    have e : (levels'[i]?).map PLevel.logX = (levels[i]?).map fun l => sciVal 11 l.logX := by
      rw [← List.getElem?_map, ← List.getElem?_map, hX]
    rw [List.getElem?_eq_getElem hi, List.getElem?_eq_getElem (by omega)] at e
    rw [List.getD_eq_getElem _ _ hi, List.getD_eq_getElem _ _ (by omega)]
    simpa using e
  have e11 : (10 : ℝ) ^ (-((11 : ℕ) : ℤ)) = 1 / 10 ^ 11 := by norm_num
  have hnear : ∀ l ∈ levels, |sciVal 11 l.logX - l.logX| ≤ L / 2 / 10 ^ 11 := by
    intro l hl'
    have := sciVal_near 11 l.logX
    rw [e11] at this
    have := hL l hl'
    linarith
  obtain ⟨hr0, hz⟩ := logz_ranks (hg.good hG) hlev h
  have hne : levels ≠ [] := by
    rintro rfl
    exact hr0 rfl
  have hL0 : 0 ≤ L := by
    obtain ⟨l, hl'⟩ := List.exists_mem_of_ne_nil _ hne
    exact (abs_nonneg _).trans (hL l hl')
  have hε : 0 ≤ L / 2 / 10 ^ 11 := by positivity
  have hall : ∀ i, |(levels'.getD i ⟨0, 0⟩).logX - (levels.getD i ⟨0, 0⟩).logX| ≤ L / 2 / 10 ^ 11 := by
    intro i
    by_cases hi : i < levels.length
    · rw [hpt i hi]
      refine hnear _ ?_
      rw [List.getD_eq_getElem _ _ hi]
      exact List.getElem_mem hi
    · rw [List.getD_eq_default _ _ (by omega), List.getD_eq_default _ _ (by omega)]
      simpa using hε
  have hg2 : GapLevels (G / 2) levels := ⟨hg.1.imp fun h => by linarith, fun l hl => by linarith [hg.2 l hl]⟩
  have hg' : GapLevels (G / 2) levels' := by
    constructor
    · have hh : (levels.map fun l => sciVal 11 l.logX).Pairwise fun a b : ℝ => b + G / 2 ≤ a := by
        refine List.pairwise_map.2 (hg.1.imp_of_mem fun {a b} ha hb hab => ?_)
        have n1 := abs_le.1 (hnear a ha)
        have n2 := abs_le.1 (hnear b hb)
        linarith [n1.1, n2.2]
      rw [← hX] at hh
      exact List.pairwise_map.1 hh
    · intro l hl'
      have : l.logX ∈ levels.map fun l => sciVal 11 l.logX := by rw [← hX]; exact List.mem_map_of_mem hl'
      obtain ⟨l2, h2, e⟩ := List.mem_map.1 this
      have n1 := abs_le.1 (hnear l2 h2)
      have := hg.2 l2 h2
      rw [← e]
      linarith [n1.1]
  obtain ⟨-, hz'⟩ := logz_ranks (hg'.good (by linarith)) (info := info.map P) (by
    intro p hp
    obtain ⟨q, hq, rfl⟩ := List.mem_map.1 hp
    rw [(hP q hq).1, hl]; exact hlev q hq) h'
  have hrk : ∀ i, rankedLogl levels' (info.map P) i = (rankedLogl levels info i).map (sciVal 6) := fun i =>
    rankedLogl_map (fun x y hxy => sciVal_mono hxy) (fun p hp => (hP p hp).2) hs i
  have hlen : ∀ i, (rankedLogl levels' (info.map P) i).length = (rankedLogl levels info i).length := fun i => by
    rw [hrk, List.length_map]
  have hranks : ranks (rankedLogl levels' (info.map P)) levels'.length = ranks (rankedLogl levels info) levels.length := by
    unfold ranks
    rw [hl]
    simp only [hlen]
  set R := ranks (rankedLogl levels info) levels.length with hR
  set δ := L / 2 / 10 ^ 11 * (1 + 2 / (G / 2)) with hδ
  have hmass : ∀ x ∈ R, |rankMass levels' (rankedLogl levels' (info.map P)) x - rankMass levels (rankedLogl levels info) x| ≤ δ :=
    fun x hx => rankMass_near (by linarith) hg2 hg' hl hε hall hlen (mem_ranks.1 hx).1 (mem_ranks.1 hx).2
  rw [hranks] at hz'
  rw [hz, hz']
  have k1 := logsum_near R hr0 _ _ hmass
  have k2 := logsum_near R hr0 (fun x => rankMass levels' (rankedLogl levels' (info.map P)) x +
      (rankedLogl levels' (info.map P) x.1).getD x.2 0 / T)
    (fun x => rankMass levels (rankedLogl levels info) x + (rankedLogl levels info x.1).getD x.2 0 / T)
    (δ := δ + 1 / 2 / 10 ^ 6 * B / T) fun x hx => by
      have hm := hmass x hx
      rw [hrk]
      have hk := (mem_ranks.1 hx).2
      rw [List.getD_eq_getElem _ _ (by rw [List.length_map]; exact hk), List.getD_eq_getElem _ _ hk, List.getElem_map]
      have hmem : ∃ p ∈ info, p.logl = (rankedLogl levels info x.1)[x.2] := by
        have h1 : (rankedLogl levels info x.1).Perm ((info.filter fun p => sandwich levels p = x.1).map PInfo.logl) := by
          rw [← membersOf_logl]
          exact (msortC_perm _ _).map _
        obtain ⟨p, hp, e⟩ := List.mem_map.1 (h1.mem_iff.1 (List.getElem_mem hk))
        exact ⟨p, (List.mem_filter.1 hp).1, e⟩
      obtain ⟨p, hp, e⟩ := hmem
      rw [← e]
      have hn := sciVal_near 6 p.logl
      have e10 : (10 : ℝ) ^ (-((6 : ℕ) : ℤ)) = 1 / 10 ^ 6 := by norm_num
      rw [e10] at hn
      have hb := hB p hp
      have ht : |sciVal 6 p.logl / T - p.logl / T| ≤ 1 / 2 / 10 ^ 6 * B / T := by
        rw [← sub_div, abs_div, abs_of_pos hT]
        refine div_le_div_of_nonneg_right ?_ hT.le
        nlinarith
      rw [abs_le] at hm ht ⊢
      constructor <;> linarith [hm.1, hm.2, ht.1, ht.2]
  have hδ2 : δ + δ = L / 10 ^ 11 * (1 + 4 / G) := by rw [hδ]; field_simp; ring
  rw [← hδ2]
  rw [abs_le] at k1 k2 ⊢
  constructor <;> linarith [k1.1, k1.2, k2.1, k2.2]

/-! ### Samples at a threshold -/

/-- Two levels; the threshold of the second is printed exactly. -/
noncomputable def edgeLevels : List PLevel := [⟨0, -10⟩, ⟨-1, 1000.0003⟩]

/-- Two samples, the second just above the threshold. -/
noncomputable def edgeInfo : List PInfo := [⟨0, 0, 1 / 2⟩, ⟨0, 1000.0004, 1 / 4⟩]

/-- A row as printed. -/
noncomputable def printInfo (p : PInfo) : PInfo := ⟨p.level, sciVal 6 p.logl, rd6 p.tie⟩

theorem log_edge : Int.log 10 (1000.0004 : ℝ) = 3 := by
  rw [Int.log_of_one_le_right _ (by norm_num)]
  have : ⌊(1000.0004 : ℝ)⌋₊ = 1000 := by
    rw [Nat.floor_eq_iff (by norm_num)]; norm_num
  rw [this]
  have : Nat.log 10 1000 = 3 := by decide +kernel
  rw [this]; rfl

theorem sciVal_edge : sciVal 6 1000.0004 = 1000 := by
  have habs : |(1000.0004 : ℝ)| = 1000.0004 := abs_of_pos (by norm_num)
  have hr : rne ((1000.0004 : ℝ) / (10 : ℝ) ^ ((3 : ℤ) - (6 : ℕ))) = 1000000 := by
    have e : (1000.0004 : ℝ) / (10 : ℝ) ^ ((3 : ℤ) - (6 : ℕ)) = 1000000.4 := by norm_num
    have hf : ⌊(1000000.4 : ℝ)⌋₊ = 1000000 := by
      rw [Nat.floor_eq_iff (by norm_num)]; norm_num
    rw [e, rne, hf, if_pos (by norm_num)]
  unfold sciVal sciAbs sciParts
  rw [habs, if_neg (by norm_num), if_neg (by norm_num), log_edge, hr, if_neg (by norm_num)]
  norm_num

theorem edge_print : edgeInfo.map printInfo = [⟨0, 0, rd6 (1 / 2)⟩, ⟨0, 1000, rd6 (1 / 4)⟩] := by
  have h0 : sciVal 6 0 = 0 := by simp [sciVal, sciAbs_zero]
  simp only [edgeInfo, List.map_cons, List.map_nil, printInfo, sciVal_edge, h0]

theorem edgeLevels_good : GoodLevels edgeLevels := by
  refine ⟨by simp [edgeLevels], ?_⟩
  intro l hl
  unfold logXFloor
  simp only [edgeLevels, List.mem_cons, List.not_mem_nil, or_false] at hl
  have h10 : (1 : ℝ) < 10 ^ 300 := one_lt_pow₀ (by norm_num) (by norm_num)
  generalize (10 : ℝ) ^ 300 = t at h10 ⊢
  rcases hl with rfl | rfl <;> simp only <;> linarith

theorem rankedLogl_perm_filter (levels : List PLevel) (info : List PInfo) (i : ℕ) :
    (rankedLogl levels info i).Perm ((info.filter fun p => sandwich levels p = i).map PInfo.logl) ∧
      (rankedLogl levels info i).Pairwise (· ≤ ·) := by
  refine ⟨?_, List.pairwise_map.2 (sortedOf_sorted levels info i)⟩
  rw [← membersOf_logl]
  exact (msortC_perm _ _).map _

theorem edge_sandwich (t : ℝ) : sandwich edgeLevels ⟨0, 0, t⟩ = 0 ∧ sandwich edgeLevels ⟨0, 1000.0004, t⟩ = 1 ∧
    sandwich edgeLevels ⟨0, 1000, t⟩ = 0 := by
  refine ⟨?_, ?_, ?_⟩ <;> (simp only [sandwich, edgeLevels, List.drop_zero, sandwichGo]; norm_num)

theorem edge_ranked : rankedLogl edgeLevels edgeInfo 0 = [0] ∧ rankedLogl edgeLevels edgeInfo 1 = [1000.0004] := by
  have h1 := fun t => (edge_sandwich t).1
  have h2 := fun t => (edge_sandwich t).2.1
  constructor
  · refine List.perm_singleton.1 ((rankedLogl_perm_filter _ _ 0).1.trans ?_)
    simp [edgeInfo, h1, h2]
  · refine List.perm_singleton.1 ((rankedLogl_perm_filter _ _ 1).1.trans ?_)
    simp [edgeInfo, h1, h2]

theorem edge_ranked' : rankedLogl edgeLevels (edgeInfo.map printInfo) 0 = [0, 1000] ∧
    rankedLogl edgeLevels (edgeInfo.map printInfo) 1 = [] := by
  have h1 := fun t => (edge_sandwich t).1
  have h2 := fun t => (edge_sandwich t).2.2
  rw [edge_print]
  constructor
  · have hp := rankedLogl_perm_filter edgeLevels [⟨0, 0, rd6 (1 / 2)⟩, ⟨0, 1000, rd6 (1 / 4)⟩] 0
    refine List.Perm.eq_of_pairwise' hp.2 (by simp) (hp.1.trans ?_)
    simp [h1, h2]
  · refine List.perm_nil.1 ((rankedLogl_perm_filter _ _ 1).1.trans ?_)
    simp [h1, h2]

theorem logpAt_alone {xmax xmin : ℝ} (h : xmin < xmax) :
    Real.exp ((logpAt xmax xmin 1 0).getD 0) = (Real.exp xmax - Real.exp xmin) / 2 := by
  obtain ⟨r, l, p, hr, hl, hp, -, -, -, e⟩ := logpAt_spec h (n := 1) (j := 0) (by omega)
  simp only [rightAt, leftAt, ne_eq, not_true_eq_false, if_false, Nat.sub_self, Option.some.injEq] at hr hl
  rw [hp, Option.getD_some, e, hr, hl]

theorem logpAt_two {xmax xmin : ℝ} (h : xmin < xmax) :
    Real.exp ((logpAt xmax xmin 2 0).getD 0) = (Real.exp xmax - Real.exp xmin) / 3 ∧
    Real.exp ((logpAt xmax xmin 2 1).getD 0) = (Real.exp xmax - Real.exp xmin) / 3 := by
  obtain ⟨x0, h0, -, -, e0⟩ := logxAt_spec h (n := 2) (j := 0) (by omega) (by omega)
  obtain ⟨x1, h1, -, -, e1⟩ := logxAt_spec h (n := 2) (j := 1) (by omega) (by omega)
  constructor
  · obtain ⟨r, l, p, hr, hl, hp, -, -, -, e⟩ := logpAt_spec h (n := 2) (j := 0) (by omega)
    simp [rightAt, leftAt, h1] at hr hl
    rw [hp, Option.getD_some, e, ← hr, ← hl, e1]
    norm_num
    ring
  · obtain ⟨r, l, p, hr, hl, hp, -, -, -, e⟩ := logpAt_spec h (n := 2) (j := 1) (by omega)
    simp [rightAt, leftAt, h0] at hr hl
    rw [hp, Option.getD_some, e, ← hr, ← hl, e0]
    norm_num
    ring

theorem edge_lower : lowerX edgeLevels 0 = -1 ∧ lowerX edgeLevels 1 = logXFloor := by
  simp [lowerX, edgeLevels]

theorem edge_floor : logXFloor < -1 := by
  unfold logXFloor
  have h10 : (1 : ℝ) < 10 ^ 300 := one_lt_pow₀ (by norm_num) (by norm_num)
  generalize (10 : ℝ) ^ 300 = t at h10 ⊢
  linarith

theorem sciVal_threshold : sciVal 11 1000.0003 = 1000.0003 ∧ sciVal 11 (-10) = -10 := by
  have l1 : Int.log 10 (1000.0003 : ℝ) = 3 := by
    rw [Int.log_of_one_le_right _ (by norm_num)]
    have : ⌊(1000.0003 : ℝ)⌋₊ = 1000 := by
      rw [Nat.floor_eq_iff (by norm_num)]; norm_num
    rw [this]
    have : Nat.log 10 1000 = 3 := by decide +kernel
    rw [this]; rfl
  have l2 : Int.log 10 (10 : ℝ) = 1 := by
    have := Int.log_natCast (R := ℝ) 10 10
    rw [Nat.cast_ofNat] at this
    rw [this]
    have : Nat.log 10 10 = 1 := by decide +kernel
    rw [this]; rfl
  have rn : ∀ n : ℕ, rne (n : ℝ) = n := fun n => by
    rw [rne, Nat.floor_natCast, if_pos (by norm_num)]
  constructor
  · have habs : |(1000.0003 : ℝ)| = 1000.0003 := abs_of_pos (by norm_num)
    have hr : rne ((1000.0003 : ℝ) / (10 : ℝ) ^ ((3 : ℤ) - (11 : ℕ))) = 100000030000 := by
      rw [← rn 100000030000]; congr 1; norm_num
    unfold sciVal sciAbs sciParts
    rw [habs, if_neg (by norm_num), if_neg (by norm_num), l1, hr, if_neg (by norm_num)]
    norm_num
  · have habs : |(-10 : ℝ)| = 10 := by norm_num
    have hr : rne ((10 : ℝ) / (10 : ℝ) ^ ((1 : ℤ) - (11 : ℕ))) = 100000000000 := by
      rw [← rn 100000000000]; congr 1; norm_num
    unfold sciVal sciAbs sciParts
    rw [habs, if_pos (by norm_num), if_neg (by norm_num), l2, hr, if_neg (by norm_num)]
    norm_num

/-- **C104, what is missing.** A sample within the printed digits of a threshold is put into the interval below, and takes
the prior mass of that interval. Two levels whose thresholds are printed exactly, two samples: no log-likelihood is changed
by more than 0.0004, but the evidence calculated from the printed rows is larger by more than a factor e^(1/4). -/
theorem C104_fails : ∃ (levels : List PLevel) (info : List PInfo) (out out' : PostOut ℕ) (draws : List (ℕ × ℝ)),
    GoodLevels levels ∧ (∀ l ∈ levels, l.logX ≤ 0 ∧ sciVal 11 l.logl = l.logl) ∧ (∀ p ∈ info, p.level < levels.length) ∧
    (∀ p ∈ info, |(printInfo p).logl - p.logl| ≤ 0.0004) ∧
    postprocess 1 levels info [0, 1] draws = .ok out ∧
    postprocess 1 levels (info.map printInfo) [0, 1] draws = .ok out' ∧
    out.logz + 1 / 4 < out'.logz := by
  have hlev : ∀ p ∈ edgeInfo, p.level < edgeLevels.length := by simp [edgeInfo, edgeLevels]
  have hlev' : ∀ p ∈ edgeInfo.map printInfo, p.level < edgeLevels.length := by
    rw [edge_print]; simp [edgeLevels]
  have hd : ∀ d ∈ ([(0, 0), (0, 0), (1, 0), (1, 0)] : List (ℕ × ℝ)), d.1 < 2 ∧ 0 ≤ d.2 ∧ d.2 < 1 := by simp
  have hc : ∀ w < 2, 2 ≤ ([(0, 0), (0, 0), (1, 0), (1, 0)] : List (ℕ × ℝ)).countP (fun d => d.1 = w) := by
    intro w hw
    interval_cases w <;> simp
  obtain ⟨out, ho⟩ := C22_terminates (α := ℕ) 1 edgeLevels edgeLevels_good edgeInfo (by simp [edgeInfo]) hlev [0, 1]
    (by simp [edgeInfo]) _ hd hc
  obtain ⟨out', ho'⟩ := C22_terminates (α := ℕ) 1 edgeLevels edgeLevels_good (edgeInfo.map printInfo) (by simp [edgeInfo]) hlev'
    [0, 1] (by simp [edgeInfo]) _ hd hc
  refine ⟨edgeLevels, edgeInfo, out, out', _, edgeLevels_good,
    by simp [edgeLevels, sciVal_threshold], hlev, ?_, ho, ho', ?_⟩
  · have h0 : sciVal 6 0 = 0 := by simp [sciVal, sciAbs_zero]
    simp only [edgeInfo, List.mem_cons, List.not_mem_nil, or_false, printInfo]
    rintro p (rfl | rfl)
    · simp only [h0]; norm_num
    · simp only [sciVal_edge]; rw [abs_le]; norm_num
  obtain ⟨-, z⟩ := logz_ranks edgeLevels_good hlev ho
  obtain ⟨-, z'⟩ := logz_ranks edgeLevels_good hlev' ho'
  obtain ⟨r0, r1⟩ := edge_ranked
  obtain ⟨r0', r1'⟩ := edge_ranked'
  obtain ⟨l0, l1⟩ := edge_lower
  have hlen : edgeLevels.length = 2 := rfl
  have R : ranks (rankedLogl edgeLevels edgeInfo) edgeLevels.length = [(0, 0), (1, 0)] := by
    simp [ranks, hlen, List.range_succ, r0, r1]
  have R' : ranks (rankedLogl edgeLevels (edgeInfo.map printInfo)) edgeLevels.length = [(0, 0), (0, 1)] := by
    simp [ranks, hlen, List.range_succ, r0', r1', -List.map_map]
  have m0 : Real.exp (rankMass edgeLevels (rankedLogl edgeLevels edgeInfo) (0, 0)) = (1 - Real.exp (-1)) / 2 := by
    have := logpAt_alone (xmax := 0) (xmin := -1) (by norm_num)
    rw [Real.exp_zero] at this
    rw [← this]
    simp only [rankMass, rankVal, r0, l0, List.length_singleton]
    rfl
  have m1 : Real.exp (rankMass edgeLevels (rankedLogl edgeLevels edgeInfo) (1, 0)) =
      (Real.exp (-1) - Real.exp logXFloor) / 2 := by
    rw [← logpAt_alone edge_floor]
    simp only [rankMass, rankVal, r1, l1, List.length_singleton]
    rfl
  have m0' : Real.exp (rankMass edgeLevels (rankedLogl edgeLevels (edgeInfo.map printInfo)) (0, 0)) =
      (1 - Real.exp (-1)) / 3 := by
    have := (logpAt_two (xmax := 0) (xmin := -1) (by norm_num)).1
    rw [Real.exp_zero] at this
    rw [← this]
    simp only [rankMass, rankVal, r0', l0, List.length_cons, List.length_nil]
    rfl
  have m1' : Real.exp (rankMass edgeLevels (rankedLogl edgeLevels (edgeInfo.map printInfo)) (0, 1)) =
      (1 - Real.exp (-1)) / 3 := by
    have := (logpAt_two (xmax := 0) (xmin := -1) (by norm_num)).2
    rw [Real.exp_zero] at this
    rw [← this]
    simp only [rankMass, rankVal, r0', l0, List.length_cons, List.length_nil]
    rfl
  simp only [R, List.map_cons, List.map_nil, List.sum_cons, List.sum_nil, Real.exp_add, m0, m1, r0, r1] at z
  simp only [R', List.map_cons, List.map_nil, List.sum_cons, List.sum_nil, Real.exp_add, m0', m1', r0'] at z'
  have c0 : (([0] : List ℝ).getD 0 0) = 0 := rfl
  have c1 : (([1000.0004] : List ℝ).getD 0 0) = 1000.0004 := rfl
  have c0' : (([0, 1000] : List ℝ).getD 0 0) = 0 := rfl
  have c1' : (([0, 1000] : List ℝ).getD 1 0) = 1000 := rfl
  rw [c0, c1, zero_div, Real.exp_zero, div_one] at z
  rw [c0', c1', zero_div, Real.exp_zero, div_one] at z'
  have a1 := Real.exp_neg_one_lt_d9
  have a0 := Real.exp_pos (-1)
  have f0 := Real.exp_pos logXFloor
  have fa := Real.exp_lt_exp.2 edge_floor
  have hE : Real.exp 1000.0004 = Real.exp 1000 * Real.exp 0.0004 := by rw [← Real.exp_add]; norm_num
  have hE' : (1001 : ℝ) ≤ Real.exp 1000 := by have := Real.add_one_le_exp (1000 : ℝ); linarith
  have hs : Real.exp 0.0004 ≤ 1.001 := by
    have h1 := Real.add_one_le_exp (-0.0004 : ℝ)
    have h2 : Real.exp (-0.0004) * Real.exp 0.0004 = 1 := by rw [← Real.exp_add]; norm_num
    have h3 := Real.exp_pos (0.0004 : ℝ)
    nlinarith
  have hq : Real.exp (1 / 4) ≤ 1.3 := by
    have h4 : Real.exp (1 / 4) ^ 4 = Real.exp 1 := by rw [← Real.exp_nat_mul]; norm_num
    by_contra hc
    push Not at hc
    have h5 : (1.3 : ℝ) ^ 4 < Real.exp (1 / 4) ^ 4 := pow_lt_pow_left₀ hc (by norm_num) (by norm_num)
    rw [h4] at h5
    have := Real.exp_one_lt_d9
    norm_num at h5
    linarith
  have hs0 := Real.exp_pos (0.0004 : ℝ)
  have hq0 := Real.exp_pos (1 / 4 : ℝ)
  rw [hE] at z
  generalize Real.exp (-1) = a at *
  generalize Real.exp logXFloor = f at *
  generalize Real.exp 1000 = E at *
  generalize Real.exp 0.0004 = s at *
  have hsE : s * E ≤ 1.001 * E := by nlinarith
  have hs1 : 0 < s * E := by positivity
  have d0 : 0 < (1 - a) / 2 + ((a - f) / 2 + 0) := by linarith
  have n0 : 0 < (1 - a) / 2 * 1 + ((a - f) / 2 * (E * s) + 0) := by
    have : 0 ≤ (a - f) / 2 * (E * s) := by
      refine mul_nonneg (by linarith) ?_
      linarith [mul_comm s E]
    linarith
  have d0' : 0 < (1 - a) / 3 + ((1 - a) / 3 + 0) := by linarith
  have n0' : 0 < (1 - a) / 3 * 1 + ((1 - a) / 3 * E + 0) := by
    have : 0 ≤ (1 - a) / 3 * E := mul_nonneg (by linarith) (by linarith)
    linarith
  rw [z, z', ← Real.log_div n0.ne' d0.ne', ← Real.log_div n0'.ne' d0'.ne']
  have hZ : ((1 - a) / 2 * 1 + ((a - f) / 2 * (E * s) + 0)) / ((1 - a) / 2 + ((a - f) / 2 + 0)) ≤ 1 + a * (s * E) := by
    rw [div_le_iff₀ d0]
    nlinarith [mul_nonneg (mul_nonneg f0.le (by linarith : (0 : ℝ) ≤ 1 - a)) hs1.le]
  have hZ' : E / 2 ≤ ((1 - a) / 3 * 1 + ((1 - a) / 3 * E + 0)) / ((1 - a) / 3 + ((1 - a) / 3 + 0)) := by
    rw [le_div_iff₀ d0']
    nlinarith
  have key : Real.exp (1 / 4) * (1 + a * (s * E)) < E / 2 := by
    have h1 : a * (s * E) ≤ 0.368 * (1.001 * E) := by
      refine mul_le_mul (by linarith) hsE hs1.le (by norm_num)
    have h2 : Real.exp (1 / 4) * (1 + a * (s * E)) ≤ 1.3 * (1 + 0.368 * (1.001 * E)) :=
      mul_le_mul hq (by linarith) (by have := mul_pos a0 hs1; linarith) (by norm_num)
    linarith
  have pos : 0 < ((1 - a) / 2 * 1 + ((a - f) / 2 * (E * s) + 0)) / ((1 - a) / 2 + ((a - f) / 2 + 0)) := div_pos n0 d0
  rw [show (1 / 4 : ℝ) = Real.log (Real.exp (1 / 4)) by rw [Real.log_exp], ← Real.log_mul pos.ne' hq0.ne']
  refine Real.log_lt_log (mul_pos pos hq0) ?_
  rw [mul_comm]
  exact (mul_le_mul_of_nonneg_left hZ hq0.le).trans_lt (key.trans_le hZ')

/-- The hypotheses of the part that holds are met: the same two samples, with a threshold that is not so close. -/
example : ∃ out out' : PostOut String, postprocess 1 exLevels exInfo ["a", "b", "c"] exPDraws = .ok out ∧
    postprocess 1 [⟨sciVal 11 0, -10⟩, ⟨sciVal 11 (-1), 0⟩] (exInfo.map printInfo) ["a", "b", "c"] exPDraws = .ok out' ∧
    |out'.logz - out.logz| ≤ 1 / 2 / 10 ^ 6 * 5 / 1 + 1 / 10 ^ 11 * (1 + 4 / 1) := by
  have h0 : sciVal 6 0 = 0 := by simp [sciVal, sciAbs_zero]
  have near : ∀ x : ℝ, |x| ≤ 5 → |sciVal 6 x - x| ≤ 1 / 10 := fun x hx => by
    have := sciVal_near 6 x
    have e : (10 : ℝ) ^ (-((6 : ℕ) : ℤ)) = 1 / 10 ^ 6 := by norm_num
    rw [e] at this
    linarith
  have n1 := abs_le.1 (near (-5) (by norm_num))
  have n2 := abs_le.1 (near (-3) (by norm_num [abs_le]))
  have n3 := abs_le.1 (near 2 (by norm_num [abs_le]))
  have hd : ∀ d ∈ exPDraws, d.1 < 3 ∧ 0 ≤ d.2 ∧ d.2 < 1 := by
    intro d hd
    simp only [exPDraws, List.mem_cons, List.not_mem_nil, or_false] at hd
    rcases hd with rfl | rfl | rfl | rfl | rfl | rfl | rfl | rfl | rfl <;> norm_num
  have hc : ∀ w < 3, 3 ≤ exPDraws.countP (fun d => d.1 = w) := by
    intro w hw
    interval_cases w <;> simp [exPDraws]
  obtain ⟨out, ho⟩ := ex_postprocess
  have x0 : sciVal 11 0 = 0 := by simp [sciVal, sciAbs_zero]
  have x1 := abs_le.1 (sciVal_near 11 (-1))
  norm_num at x1
  have hf : logXFloor + 1 < -1 := by
    unfold logXFloor
    have h10 : (2 : ℝ) < 10 ^ 300 := lt_of_lt_of_le (by norm_num : (2 : ℝ) < 10 ^ 1) (pow_le_pow_right₀ (by norm_num) (by norm_num))
    generalize (10 : ℝ) ^ 300 = t at h10 ⊢
    linarith
  obtain ⟨out', ho'⟩ := C22_terminates (α := String) 1 [⟨sciVal 11 0, -10⟩, ⟨sciVal 11 (-1), 0⟩]
    ⟨by simp [x0]; linarith, by simp [x0]; constructor <;> linarith⟩ (exInfo.map printInfo) (by simp [exInfo])
    (by simp [exInfo, printInfo]) ["a", "b", "c"] (by simp [exInfo]) exPDraws (by simpa [exInfo] using hd)
    (by simpa [exInfo] using hc)
  refine ⟨out, out', ho, ho', C104_evidence_partial 1 one_pos exLevels _ 1 1 one_pos
    ⟨by simp [exLevels], by simp [exLevels]; constructor <;> linarith⟩ (by simp [exLevels]) (by norm_num) (by simp [exLevels]) exInfo
    (by simp [exInfo, exLevels]) printInfo (fun p _ => ⟨rfl, rfl⟩) ?_ 5 (by simp [exInfo]; norm_num [abs_le]) _ _ _ _ _ _ ho ho'⟩
  intro p hp
  simp only [exInfo, List.mem_cons, List.not_mem_nil, or_false] at hp
  rcases hp with rfl | rfl | rfl
  · simp only [printInfo, sandwich, exLevels, List.drop_zero, sandwichGo]
    rw [if_neg (by linarith), if_pos (by linarith), if_neg (by norm_num), if_pos (by norm_num)]
  · simp only [printInfo, sandwich, exLevels, List.drop_zero, sandwichGo]
    rw [if_neg (by linarith), if_pos (by linarith), if_neg (by norm_num), if_pos (by norm_num)]
  · simp only [printInfo, sandwich, exLevels, List.drop_succ_cons, List.drop_zero, sandwichGo]
    rw [if_pos (by linarith), if_pos (by norm_num)]

end Mica
