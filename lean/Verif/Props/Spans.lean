import Verif.Proof.Spans
import Verif.Model.LineParams
import Verif.Model.Misc
import Mathlib.Analysis.SpecialFunctions.Pow.Real

/-!
# C71-C73: quantities derived from the sampling of the data

`read_data` (src/read.c:955-1013) and `get_seasonal_gap` (src/read.c:1388-1425).
-/

namespace Mica

/-! ## C71: time span, lag limit, cadence, default range of widths -/

/-- **C71.** `tspan_max` is the longest time span of a light curve (0 without light curves). -/
theorem C71_span (sets : List FSet) :
    0 ≤ tspanMax sets ∧
      (∀ s ∈ sets, ∀ r, (r = s.con ∨ r ∈ s.lines) → r ≠ [] → spanOf r ≤ tspanMax sets) ∧
      (tspanMax sets = 0 ∨ ∃ s ∈ sets, ∃ r, (r = s.con ∨ r ∈ s.lines) ∧ r ≠ [] ∧ spanOf r = tspanMax sets) := by
  obtain ⟨h1, h2, h3⟩ := foldl_gt_spec ((curvesOf sets).map spanOf) 0
  refine ⟨h1, fun s hs r hr hne => h2 _ (List.mem_map.2 ⟨r, ?_, rfl⟩), ?_⟩
  · unfold curvesOf
    rw [List.mem_filter, List.mem_flatten]
    refine ⟨⟨_, List.mem_map.2 ⟨s, hs, rfl⟩, ?_⟩, by simpa using hne⟩
    rcases hr with rfl | hr
    · simp
    · simp [hr]
  · rcases List.mem_cons.1 h3 with h3 | h3
    · left; exact h3
    · right
      obtain ⟨r, hr, he⟩ := List.mem_map.1 h3
      unfold curvesOf at hr
      rw [List.mem_filter, List.mem_flatten] at hr
      obtain ⟨⟨l, hl, hrl⟩, hne⟩ := hr
      obtain ⟨s, hs, rfl⟩ := List.mem_map.1 hl
      exact ⟨s, hs, r, by simpa using hrl, by simpa using hne, he⟩

/-- **C71.** The upper lag limit is the user's if it is not negative. -/
theorem C71_lag_partial (lim : ℝ) (sets : List FSet) (h : 0 ≤ lim) : lagUpper lim sets = lim := by
  unfold lagUpper; rw [if_neg (not_lt.2 h)]

/-- **C71, negation.** A negative upper lag limit given by the user is silently replaced by half the time
span, so lags that were excluded are searched. -/
theorem C71_negative_limit (lim : ℝ) (sets : List FSet) (h : lim < 0) :
    lagUpper lim sets = tspanMax sets / 2 ∧ lim < lagUpper lim sets := by
  unfold lagUpper
  rw [if_pos h]
  exact ⟨rfl, lt_of_lt_of_le h (by linarith [(C71_span sets).1])⟩

/-- **C71.** `tcadence_min` does not exceed the mean interval of any light curve with two or more
points. -/
theorem C71_cadence (sets : List FSet) (s : FSet) (hs : s ∈ sets) (r : List Row)
    (hr : r = s.con ∨ r ∈ s.lines) (hl : 2 ≤ r.length) :
    tcadMin sets ≤ spanOf r / (r.length - 1 : ℕ) := by
  rcases hr with rfl | hr
  · exact (min_le_left _ _).trans
      ((cadFold_spec _ _).2.1 _ (List.mem_map.2 ⟨s, hs, rfl⟩) hl)
  · exact (min_le_right _ _).trans
      ((cadFold_spec _ _).2.1 _ (List.mem_flatten.2 ⟨s.lines, List.mem_map.2 ⟨s, hs, rfl⟩, hr⟩) hl)

private theorem cad_pos (sets : List FSet) (rs : List (List Row)) (hspan : 0 < tspanMax sets)
    (hpos : ∀ r ∈ rs, 2 ≤ r.length → 0 < spanOf r) : 0 < rs.foldl cadStep (tspanMax sets) := by
  rcases (cadFold_spec rs (tspanMax sets)).2.2 with h | ⟨r, hr, hl, he⟩
  · rw [h]; exact hspan
  · rw [he]
    exact div_pos (hpos r hr hl) (by exact_mod_cast (by omega : 0 < r.length - 1))

/-- **C71.** If every light curve with two or more points extends in time and there is one, the default
range of the logarithms of widths is finite and not empty: it is that of widths between a tenth of
the smallest mean interval and a third of the time span, both positive.  Missing: light curves
whose times all coincide, which `check_time_sorted` lets through, see `C71_same_times`. -/
theorem C71_width_partial (sets : List FSet)
    (hpos : ∀ s ∈ sets, ∀ r, (r = s.con ∨ r ∈ s.lines) → 2 ≤ r.length → 0 < spanOf r)
    (hone : ∃ s ∈ sets, ∃ r, (r = s.con ∨ r ∈ s.lines) ∧ 2 ≤ r.length)
    (c : LineCfg) (hc : c.tspan = tspanMax sets ∧ c.tcad = tcadMin sets)
    (hw : c.widthLow = none ∧ c.widthUpp = none) :
    0 < tcadMin sets ∧ tcadMin sets ≤ tspanMax sets ∧
      c.widthRange = (Real.log (tcadMin sets / 10), Real.log (tspanMax sets / 3)) ∧
      c.widthRange.1 < c.widthRange.2 := by
  obtain ⟨s, hs, r, hr, hl⟩ := hone
  have hspan : 0 < tspanMax sets := lt_of_lt_of_le (hpos s hs r hr hl)
    ((C71_span sets).2.1 s hs r hr (by rintro rfl; simp at hl))
  have h1 : 0 < tcadMin sets := by
    refine lt_min (cad_pos sets _ hspan fun q hq h2 => ?_) (cad_pos sets _ hspan fun q hq h2 => ?_)
    · obtain ⟨s', hs', rfl⟩ := List.mem_map.1 hq
      exact hpos s' hs' _ (Or.inl rfl) h2
    · obtain ⟨l, hl', hq⟩ := List.mem_flatten.1 hq
      obtain ⟨s', hs', rfl⟩ := List.mem_map.1 hl'
      exact hpos s' hs' _ (Or.inr hq) h2
  have h2 : tcadMin sets ≤ tspanMax sets := (min_le_left _ _).trans (cadFold_spec _ _).1
  have h3 : c.widthRange = (Real.log (tcadMin sets / 10), Real.log (tspanMax sets / 3)) := by
    unfold LineCfg.widthRange
    rw [hw.1, hw.2, hc.1, hc.2]
  refine ⟨h1, h2, h3, ?_⟩
  rw [h3]
  exact Real.log_lt_log (by linarith) (by linarith)

/-- **C71, negation.** A light curve with several points at one time passes the check of the times and
makes the smallest mean interval zero, whose logarithm is the lower end of the range of widths. -/
theorem C71_same_times :
    ∃ sets : List FSet, (∀ s ∈ sets, unsorted (s.con.map Prod.fst) = false ∧
        ∀ l ∈ s.lines, unsorted (l.map Prod.fst) = false) ∧
      0 < tspanMax sets ∧ tcadMin sets = 0 := by
  refine ⟨[⟨[(0, 1, 1), (1, 3, 1)], [[(0, 1, 1), (0, 3, 1)]]⟩], ?_, ?_, ?_⟩
  · simp [unsorted]
  · norm_num [tspanMax, curvesOf, spanOf]
  · norm_num [tcadMin, tcadCon, tcadLine, tspanMax, curvesOf, spanOf, cadStep]

/-! ## C72: digits of the printed times -/

/-- `p` is the time `t` as printed by `%.ne`: the nearest number with `n` digits behind the point of the
mantissa. -/
def PrintedAs (n : ℤ) (t p : ℝ) : Prop :=
  if t = 0 then p = 0 else |p - t| ≤ (10 : ℝ) ^ (⌊Real.logb 10 |t|⌋ - n) / 2

private theorem zpow_floor_le {x : ℝ} (hx : 0 < x) : (10 : ℝ) ^ ⌊Real.logb 10 x⌋ ≤ x := by
  have h := Int.floor_le (Real.logb 10 x)
  have h2 : (10 : ℝ) ^ ((⌊Real.logb 10 x⌋ : ℤ) : ℝ) ≤ (10 : ℝ) ^ Real.logb 10 x :=
    Real.rpow_le_rpow_of_exponent_le (by norm_num) h
  rwa [Real.rpow_intCast, Real.rpow_logb (by norm_num) (by norm_num) hx] at h2

private theorem print_err {tmax tspan : ℝ} {nd : ℕ} {n : ℤ} (h : timeDigits tmax tspan nd = .ok n)
    (hspan : 0 < tspan) {t p : ℝ} (ht : |t| ≤ 10 * |tmax|) (hp : PrintedAs n t p) :
    |p - t| ≤ tspan / nd / 2 := by
  unfold timeDigits at h
  split_ifs at h with h0
  push Not at h0
  obtain ⟨h1, -, h3⟩ := h0
  simp only [Res.ok.injEq] at h
  have hnd : (0 : ℝ) < nd := by exact_mod_cast Nat.pos_of_ne_zero h3
  have hdt : 0 < tspan / nd := div_pos hspan hnd
  unfold PrintedAs at hp
  split_ifs at hp with ht0
  · rw [hp, ht0]; simp; positivity
  · refine hp.trans (div_le_div_of_nonneg_right ?_ (by norm_num))
    refine le_trans ?_ (zpow_floor_le hdt)
    refine zpow_le_zpow_right₀ (by norm_num) ?_
    have hn : ⌊Real.logb 10 |tmax|⌋ + 1 - ⌊Real.logb 10 (tspan / nd)⌋ ≤ n := by rw [← h]; exact le_max_left _ _
    have hfl : ⌊Real.logb 10 |t|⌋ ≤ ⌊Real.logb 10 |tmax|⌋ + 1 := by
      have hab : 0 < |t| := abs_pos.2 ht0
      have htm : 0 < |tmax| := abs_pos.2 h1
      have h5 : Real.logb 10 |t| ≤ Real.logb 10 |tmax| + 1 := by
        have h6 : Real.logb 10 (10 * |tmax|) = 1 + Real.logb 10 |tmax| := by
          rw [Real.logb_mul (by norm_num) htm.ne', Real.logb_self_eq_one (by norm_num)]
        have := Real.logb_le_logb_of_le (b := 10) (by norm_num) hab ht
        linarith
      have := Int.floor_le_floor h5
      rwa [Int.floor_add_one] at this
    linarith

/-- **C72.** Times more than `tspan_max/nd_rec` apart, and not more than ten times as large as the last
time of the data, are printed as different times in the same order.  Missing: data sets with a
much shorter time span than the longest one, see `C72_short_set`, and a last time of zero, see
`C72_zero`. -/
theorem C72_times_partial (tmax tspan : ℝ) (nd : ℕ) (n : ℤ) (h : timeDigits tmax tspan nd = .ok n)
    (hspan : 0 < tspan) (t t' p p' : ℝ) (ht : |t| ≤ 10 * |tmax|) (ht' : |t'| ≤ 10 * |tmax|)
    (hd : tspan / nd < t' - t) (hp : PrintedAs n t p) (hp' : PrintedAs n t' p') : p < p' := by
  have h1 := abs_le.1 (print_err h hspan ht hp)
  have h2 := abs_le.1 (print_err h hspan ht' hp')
  linarith [h1.2, h2.1]

/-- No light curve ends behind `tmax`. -/
theorem last_le_tmax (low : ℝ) (sets : List FSet) {s : FSet} (hs : s ∈ sets) {r : List Row} (hr : r = s.con ∨ r ∈ s.lines) {x : Row}
    (hx : r.getLast? = some x) : x.1 ≤ tmaxAll low sets := by
  have hne : r ≠ [] := by rintro rfl; simp at hx
  have hmem : r ∈ curvesOf sets := by
    unfold curvesOf
    rw [List.mem_filter, List.mem_flatten]
    refine ⟨⟨_, List.mem_map.2 ⟨s, hs, rfl⟩, ?_⟩, by simpa using hne⟩
    rcases hr with rfl | hr
    · simp
    · simp [hr]
  have hfold : ∀ (l : List ℝ) (m : ℝ), m ≤ l.foldl max m ∧ ∀ y ∈ l, y ≤ l.foldl max m := by
    intro l
    induction l with
    | nil => exact fun m => ⟨le_rfl, fun y hy => by cases hy⟩
    | cons a l ih =>
      intro m
      obtain ⟨h1, h2⟩ := ih (max m a)
      refine ⟨(le_max_left _ _).trans h1, fun y hy => ?_⟩
      rcases List.mem_cons.1 hy with rfl | hy
      · exact (le_max_right _ _).trans h1
      · exact h2 y hy
  have := (hfold ((curvesOf sets).map fun r => (r.getLastD (0, 0, 0)).1) low).2 _ (List.mem_map.2 ⟨r, hmem, rfl⟩)
  rwa [List.getLastD_eq_getLast?, hx, Option.getD_some] at this

/-- **C72.** Hence for data at non-negative times, without extension of the window, the time nodes of a
data set that covers the longest time span and ends not later than some light curve are printed in strictly increasing order. -/
theorem C72_nodes_partial (sets : List FSet) (low : ℝ) (nd : ℕ) (n : ℤ)
    (hn : timeDigits (tmaxAll low sets) (tspanMax sets) nd = .ok n) (hspan : 0 < tspanMax sets)
    (b : ℝ × ℝ) (hb : tspanMax sets ≤ b.2 - b.1) (hb0 : 0 ≤ b.1)
    (hb1 : ∃ s ∈ sets, ∃ r, (r = s.con ∨ r ∈ s.lines) ∧ ∃ x, r.getLast? = some x ∧ b.2 ≤ x.1)
    (m : ℕ) (hm : 2 ≤ m) (hmnd : m ≤ nd) (j : ℕ) (hj : j + 1 < m) (t t' p p' : ℝ)
    (ht : recNode (recWindow 0 0 b) m j = .ok t) (ht' : recNode (recWindow 0 0 b) m (j + 1) = .ok t')
    (hp : PrintedAs n t p) (hp' : PrintedAs n t' p') : p < p' := by
  have hb1 : b.2 ≤ tmaxAll low sets := by
    obtain ⟨s, hs, r, hr, x, hx, h⟩ := hb1
    exact h.trans (last_le_tmax low sets hs hr hx)
  have hm1 : (0 : ℝ) < (m : ℝ) - 1 := by
    have : (2 : ℝ) ≤ m := by exact_mod_cast hm
    linarith
  have hjm : (j : ℝ) + 1 ≤ (m : ℝ) - 1 := by
    have : ((j + 1 + 1 : ℕ) : ℝ) ≤ m := by exact_mod_cast hj
    push_cast at this
    linarith
  have hmn : (m : ℝ) ≤ nd := by exact_mod_cast hmnd
  unfold recNode recWindow at ht ht'
  rw [if_neg hm1.ne'] at ht ht'
  simp only [Res.ok.injEq, add_zero] at ht ht'
  set S := b.2 - b.1 with hS
  have hS0 : 0 < S := lt_of_lt_of_le hspan hb
  set w := (b.2 + 0.05 * S - (b.1 - 0.05 * S)) / ((m : ℝ) - 1) with hw
  have hwS : w * ((m : ℝ) - 1) = 1.1 * S := by
    rw [hw, div_mul_cancel₀ _ hm1.ne', hS]; ring
  have hw0 : 0 < w := by
    by_contra hneg
    have := mul_nonpos_of_nonpos_of_nonneg (not_lt.1 hneg) hm1.le
    linarith
  have hj0 : (0 : ℝ) ≤ j := by positivity
  have hbound : ∀ x : ℝ, 0 ≤ x → x ≤ (m : ℝ) - 1 → |w * x + (b.1 - 0.05 * S)| ≤ 10 * |tmaxAll low sets| := by
    intro x hx0 hx1
    have h1 : 0 ≤ w * x := by positivity
    have h2 : w * x ≤ 1.1 * S := by rw [← hwS]; exact mul_le_mul_of_nonneg_left hx1 hw0.le
    have h3 : 0 ≤ tmaxAll low sets := by linarith
    rw [abs_of_nonneg h3, abs_le]
    constructor <;> linarith
  refine C72_times_partial _ _ nd n hn hspan t t' p p' ?_ ?_ ?_ hp hp'
  · rw [← ht]; exact hbound j hj0 (by linarith)
  · rw [← ht']; push_cast; exact hbound _ (by positivity) hjm
  · rw [← ht, ← ht']
    push_cast
    have hnd : (0 : ℝ) < nd := by linarith
    rw [div_lt_iff₀ hnd]
    have : w * ((j : ℝ) + 1) + (b.1 - 0.05 * S) - (w * j + (b.1 - 0.05 * S)) = w := by ring
    rw [this]
    nlinarith

/-- Data over a hundred days, a grid of 200 nodes. -/
example : ∃ n : ℤ, timeDigits (tmaxAll 0 [⟨[(0, 1, 1), (100, 2, 1)], []⟩]) (tspanMax [⟨[(0, 1, 1), (100, 2, 1)], []⟩]) 200 = .ok n ∧
    ∀ (j : ℕ) (_ : j + 1 < 200) (t t' p p' : ℝ), recNode (recWindow 0 0 (0, 100)) 200 j = .ok t →
      recNode (recWindow 0 0 (0, 100)) 200 (j + 1) = .ok t' → PrintedAs n t p → PrintedAs n t' p' → p < p' := by
  have e1 : tmaxAll 0 [⟨[(0, 1, 1), (100, 2, 1)], []⟩] = 100 := by norm_num [tmaxAll, curvesOf]
  have e2 : tspanMax [⟨[(0, 1, 1), (100, 2, 1)], []⟩] = 100 := by norm_num [tspanMax, curvesOf, spanOf]
  obtain ⟨n, hn⟩ : ∃ n, timeDigits (tmaxAll 0 [⟨[(0, 1, 1), (100, 2, 1)], []⟩]) (tspanMax [⟨[(0, 1, 1), (100, 2, 1)], []⟩]) 200 = .ok n := by
    rw [e1, e2]
    unfold timeDigits
    rw [if_neg (by norm_num)]
    exact ⟨_, rfl⟩
  refine ⟨n, hn, fun j hj t t' p p' h1 h2 h3 h4 => ?_⟩
  exact C72_nodes_partial _ 0 200 n hn (by rw [e2]; norm_num) (0, 100) (by rw [e2]; norm_num) le_rfl
    ⟨_, List.mem_singleton.2 rfl, _, .inl rfl, (100, 2, 1), rfl, le_rfl⟩ 200 (by norm_num) le_rfl j hj t t' p p' h1 h2 h3 h4

/-- **C72, negation.** With a data set of one day and another of a thousand days, times of the shorter
one that are 0.001 days apart are printed alike. -/
theorem C72_short_set : ∃ n : ℤ, timeDigits 60000 1000 2000 = .ok n ∧
    PrintedAs n 60000.001 60000 ∧ PrintedAs n 60000.002 60000 := by
  have h1 : ⌊Real.logb 10 |(60000 : ℝ)|⌋ = 4 := by
    rw [abs_of_pos (by norm_num), Int.floor_eq_iff]
    constructor
    · rw [Real.le_logb_iff_rpow_le (by norm_num) (by norm_num)]; norm_num
    · rw [Real.logb_lt_iff_lt_rpow (by norm_num) (by norm_num)]; norm_num
  have h2 : ⌊Real.logb 10 ((1000 : ℝ) / (2000 : ℕ))⌋ = -1 := by
    rw [Int.floor_eq_iff]
    constructor
    · rw [Real.le_logb_iff_rpow_le (by norm_num) (by norm_num)]
      push_cast
      rw [Real.rpow_neg (by norm_num), Real.rpow_one]; norm_num
    · rw [Real.logb_lt_iff_lt_rpow (by norm_num) (by norm_num)]; norm_num
  have h3 : ∀ x : ℝ, 60000 ≤ x → x < 100000 → ⌊Real.logb 10 |x|⌋ = 4 := by
    intro x hx hx'
    rw [abs_of_pos (by linarith), Int.floor_eq_iff]
    constructor
    · rw [Real.le_logb_iff_rpow_le (by norm_num) (by linarith)]; norm_num; linarith
    · rw [Real.logb_lt_iff_lt_rpow (by norm_num) (by linarith)]; norm_num; linarith
  refine ⟨6, ?_, ?_, ?_⟩
  · unfold timeDigits
    rw [if_neg (by norm_num), h1, h2]
    norm_num
  · unfold PrintedAs
    rw [if_neg (by norm_num), h3 _ (by norm_num) (by norm_num), abs_le]
    constructor <;> norm_num [zpow_neg]
  · unfold PrintedAs
    rw [if_neg (by norm_num), h3 _ (by norm_num) (by norm_num), abs_le]
    constructor <;> norm_num [zpow_neg]

/-- **C72, negation.** If the data end at time zero, minus infinity is converted to an integer. -/
theorem C72_zero (tspan : ℝ) (nd : ℕ) : timeDigits 0 tspan nd = .ub := by
  unfold timeDigits; rw [if_pos (Or.inl rfl)]

/-! ## C73: the seasonal gap -/

private theorem gapSteps_zip (t : List ℝ) : gapSteps t = List.zipWith (fun b a => b - a) t.tail t := by
  induction t with
  | nil => rfl
  | cons a t ih =>
    cases t with
    | nil => rfl
    | cons b t => rw [gapSteps, ih]; rfl

private theorem gap_default {t : List ℝ} {cad g : ℝ} (h : seasonalGap t cad = .ok g) :
    seasonalGap t cad = .ok g ∧ defaultGap t cad = .ok (182.625, g / 2) := by
  refine ⟨h, ?_⟩
  unfold defaultGap
  rw [h, Res.ok_bind]
  norm_num

/-- **C73.** For a continuum of `n` years (rounded up, at least two) with at least `n-1` sampling
intervals, the gap is the mean of the `n-1` longest intervals; by default it is placed half a year from
the start, and its half width is kept.  Missing: fewer intervals, see `C73_few_points`. -/
theorem C73_gap_partial (t : List ℝ) (cad : ℝ) (ht : t ≠ []) (ny : ℕ)
    (hny : ((ny : ℤ)) = ⌈(t.getLast ht - t.head ht) / 365.25⌉) (h2 : 2 ≤ ny) (hlen : ny ≤ t.length) :
    ∃ top rest : List ℝ, (top ++ rest).Perm (List.zipWith (fun b a => b - a) t.tail t) ∧
      top.length = ny - 1 ∧ (∀ x ∈ top, ∀ y ∈ rest, y ≤ x) ∧
      seasonalGap t cad = .ok (top.sum / (ny - 1 : ℕ)) ∧
      defaultGap t cad = .ok (182.625, top.sum / (ny - 1 : ℕ) / 2) := by
  obtain ⟨t0, ts, rfl⟩ := List.exists_cons_of_ne_nil ht
  set dt := (gapSteps (t0 :: ts)).mergeSort (fun a b => decide (a ≤ b)) with hdt
  have hperm : dt.Perm (gapSteps (t0 :: ts)) := List.mergeSort_perm _ _
  have hl : dt.length = ts.length := by rw [hperm.length_eq, gapSteps_length]; simp
  have hsort : dt.Pairwise (fun a b => a ≤ b) := by
    have := List.pairwise_mergeSort (le := fun a b : ℝ => decide (a ≤ b))
      (fun a b c h1 h2 => by simp only [decide_eq_true_eq] at *; linarith)
      (fun a b => by simpa using le_total a b) (gapSteps (t0 :: ts))
    exact this.imp fun h => by simpa using h
  simp only [List.length_cons] at hlen
  refine ⟨dt.drop (dt.length - (ny - 1)), dt.take (dt.length - (ny - 1)), ?_, ?_, ?_, gap_default ?_⟩
  · rw [← gapSteps_zip]
    refine List.Perm.trans List.perm_append_comm ?_
    rw [List.take_append_drop]; exact hperm
  · rw [List.length_drop]; omega
  · intro x hx y hy
    have := hsort
    rw [← List.take_append_drop (dt.length - (ny - 1)) dt, List.pairwise_append] at this
    exact this.2.2 y hy x hx
  · have hgl : (t0 :: ts).getLastD 0 = (t0 :: ts).getLast ht := by
      rw [List.getLastD_eq_getLast?, List.getLast?_eq_getLast_of_ne_nil ht]; rfl
    have hny' : ⌈((t0 :: ts).getLastD 0 - t0) / (1461 / 4)⌉ = (ny : ℤ) := by
      rw [hny, hgl, List.head_cons]
      norm_num
    unfold seasonalGap
    simp only [hny']
    rw [if_pos (by omega), ← hdt]
    have e : ((ny : ℤ) - 1).toNat = ny - 1 := by omega
    rw [e, sumTop_spec dt _ (by omega), Res.ok_bind]
    congr 2
    rw [Nat.cast_sub (by omega)]
    push_cast
    ring

/-- **C73.** For a continuum of at most one year the gap is the mean interval, placed half a year from the
start. -/
theorem C73_one_year (t : List ℝ) (cad : ℝ) (ht : t ≠ []) (h : t.getLast ht - t.head ht ≤ 365.25) :
    seasonalGap t cad = .ok cad ∧ defaultGap t cad = .ok (182.625, cad / 2) := by
  apply gap_default
  obtain ⟨t0, ts, rfl⟩ := List.exists_cons_of_ne_nil ht
  have hgl : (t0 :: ts).getLastD 0 = (t0 :: ts).getLast ht := by
    rw [List.getLastD_eq_getLast?, List.getLast?_eq_getLast_of_ne_nil ht]; rfl
  unfold seasonalGap
  simp only [hgl]
  rw [if_neg]
  rw [List.head_cons] at h
  rw [gt_iff_lt, not_lt, Int.ceil_le]
  rw [div_le_iff₀ (by norm_num)]
  push_cast
  linarith

/-- **C73, negation.** With fewer intervals than gaps expected the loop runs below the start of the
array. -/
theorem C73_few_points (t : List ℝ) (cad : ℝ) (ht : t ≠ [])
    (h : (t.length : ℤ) < ⌈(t.getLast ht - t.head ht) / 365.25⌉) (h2 : 2 ≤ t.length) :
    seasonalGap t cad = .ub := by
  obtain ⟨t0, ts, rfl⟩ := List.exists_cons_of_ne_nil ht
  have hgl : (t0 :: ts).getLastD 0 = (t0 :: ts).getLast ht := by
    rw [List.getLastD_eq_getLast?, List.getLast?_eq_getLast_of_ne_nil ht]; rfl
  have e : ((t0 :: ts).getLastD 0 - t0) / (1461 / 4) = ((t0 :: ts).getLast ht - (t0 :: ts).head ht) / 365.25 := by
    rw [hgl, List.head_cons]; norm_num
  unfold seasonalGap
  simp only [e]
  rw [if_pos (by omega), sumTop_ub]
  · rfl
  · rw [List.length_mergeSort, gapSteps_length]
    omega

/-! ## Concrete cases -/

example : ∃ c : LineCfg, ∃ sets : List FSet,
    (∀ s ∈ sets, ∀ r, (r = s.con ∨ r ∈ s.lines) → 2 ≤ r.length → 0 < spanOf r) ∧
    (∃ s ∈ sets, ∃ r, (r = s.con ∨ r ∈ s.lines) ∧ 2 ≤ r.length) ∧
    (c.tspan = tspanMax sets ∧ c.tcad = tcadMin sets) ∧ c.widthLow = none ∧ c.widthUpp = none := by
  refine ⟨⟨false, 0, [1], 1, 0, 0, 0, 1, tspanMax [⟨[(0, 1, 1), (1, 3, 1)], [[(0, 1, 1), (2, 3, 1)]]⟩],
    tcadMin [⟨[(0, 1, 1), (1, 3, 1)], [[(0, 1, 1), (2, 3, 1)]]⟩], none, none, false, fun _ => 0, none, fun _ => 0,
    fun _ => 0, false, false, false, false, fun _ => 0, fun _ => 0, none⟩,
    [⟨[(0, 1, 1), (1, 3, 1)], [[(0, 1, 1), (2, 3, 1)]]⟩], ?_, ?_, ⟨rfl, rfl⟩, rfl, rfl⟩
  · intro s hs r hr _
    simp only [List.mem_singleton] at hs
    subst hs
    rcases hr with rfl | hr
    · norm_num [spanOf]
    · simp only [List.mem_singleton] at hr; subst hr; norm_num [spanOf]
  · exact ⟨_, List.mem_singleton.2 rfl, _, Or.inl rfl, by simp⟩

/-- Three points in two years: the longest interval. -/
example : ∃ top rest : List ℝ, (top ++ rest).Perm [300, 200] ∧ top.length = 1 ∧
    (∀ x ∈ top, ∀ y ∈ rest, y ≤ x) ∧ seasonalGap [0, 300, 500] 1 = .ok (top.sum / (1 : ℕ)) ∧
    defaultGap [0, 300, 500] 1 = .ok (182.625, top.sum / (1 : ℕ) / 2) := by
  have := C73_gap_partial [0, 300, 500] 1 (by simp) 2 (by
    symm
    rw [Int.ceil_eq_iff]
    simp only [List.getLast_cons_cons, List.getLast_singleton, List.head_cons]
    constructor <;> norm_num) (by norm_num) (by simp)
  simpa [show (500 : ℝ) - 300 = 200 by norm_num] using this

/-- Two points in four years. -/
example : seasonalGap [0, 1300] 1 = .ub := by
  refine C73_few_points [0, 1300] 1 (by simp) ?_ (by simp)
  rw [Int.lt_ceil]
  norm_num

end Mica
