import Verif.Model.PyAccess
import Verif.Props.LineParams
import Verif.Props.Data

/-!
# C110: the lags and widths the Python interface hands out
-/

namespace Mica

/-- Parameter `t` (0 amplitude, 1 lag, 2 width) of all components of line `j` of data set `s`, from a row of the sample
of configuration `c`. -/
def LineCfg.column (c : LineCfg) (t s j : ℕ) (row : List ℝ) : List ℝ :=
  (List.range c.ng).map fun k => row.getD (c.idxLine s j + 1 + k * 3 + t) 0

/-- What is asked for: these parameters for all numbers of components `low, …, upp` and all rows. -/
def LineCfg.columns (c : LineCfg) (t low upp : ℕ) (post : ℕ → List (List ℝ)) (s j : ℕ) : List (List (List ℝ)) :=
  (List.range (upp + 1 - low)).map fun q => (post (low + q)).map fun row => { c with ng := low + q }.column t s j row

/-- The rows have as many columns as there are parameters. -/
def LineCfg.Rows (c : LineCfg) (low upp : ℕ) (post : ℕ → List (List ℝ)) : Prop :=
  ∀ n, low ≤ n → n ≤ upp → ∀ row ∈ post n, row.length = { c with ng := n }.numParams

theorem pySlice_eq {row : List ℝ} {a n : ℕ} (h : a + 3 * (n - 1) < row.length ∨ n = 0) :
    pySlice row a (a + n * 3) 3 = (List.range n).map fun k => row.getD (a + 3 * k) 0 := by
  have hn : (a + n * 3 - a + (3 - 1)) / 3 = n := by omega
  unfold pySlice
  rw [hn]
  rw [List.filterMap_congr (g := fun k => some (row.getD (a + 3 * k) 0))]
  · rw [← List.filterMap_eq_map]; rfl
  · intro k hk
    have hk := List.mem_range.1 hk
    have : a + 3 * k < row.length := by omega
    simp [List.getElem?_eq_getElem this]

theorem PyObj.setIdx_eq (o : PyObj) (s ng : ℕ) (hs : s ≤ o.nlset.length) :
    o.setIdx s ng = o.numParamVar + (1 + 3 * ng) * (o.nlset.take (s - 1)).sum := by
  unfold PyObj.setIdx
  obtain ⟨m, hm⟩ : ∃ m, m = s - 1 := ⟨_, rfl⟩
  rw [← hm]
  have hm' : m ≤ o.nlset.length := by omega
  clear hm hs
  induction m with
  | zero => simp
  | succ m ih =>
    have hlt : m < o.nlset.length := by omega
    rw [List.range_succ, List.foldl_append, ih (by omega), List.take_succ_eq_append_getElem hlt, List.sum_append]
    simp only [List.foldl_cons, List.foldl_nil, List.sum_cons, List.sum_nil, List.getD_eq_getElem _ _ hlt]
    ring

/-- `line` exists in `set`: the question is accepted. -/
theorem PyObj.asked_ok (o : PyObj) (s j : ℕ) (hs : s < o.nset) (hj : j < o.nlset.getD s 0) :
    o.asked (s : ℤ) (j : ℤ) = some (s, j) := by
  unfold PyObj.asked
  simp only [Int.toNat_natCast]
  rw [if_neg (by omega), if_neg (by omega), if_neg (by omega), if_neg (by omega)]

theorem LineCfg.column_slice (c : LineCfg) (t s j b nv : ℕ) (row : List ℝ) (ht : t = 1 ∨ t = 2)
    (hj : j < c.nl.getD s 0) (hb : b = c.bno s j) (hnv : nv = c.numVar) (hl : row.length = c.numParams) :
    pySlice row (nv + (1 + c.ng * 3) * b + (t + 1)) (nv + (1 + c.ng * 3) * b + (t + 1) + c.ng * 3) 3 =
      c.column t s j row := by
  subst hb hnv
  have hlt : 0 < c.ng → c.numVar + (1 + c.ng * 3) * c.bno s j + (t + 1) + 3 * (c.ng - 1) < row.length := fun h0 => by
    have := c.addr_lt (q := t + 1 + 3 * (c.ng - 1)) (c.bno_lt s j hj) (by unfold LineCfg.blk; omega)
    unfold LineCfg.blk at this
    rw [hl]
    rw [show 1 + c.ng * 3 = 1 + 3 * c.ng by ring]
    omega
  rw [pySlice_eq (by omega)]
  unfold LineCfg.column
  refine List.map_congr_left fun k _ => ?_
  rw [c.idxLine_eq s j hj]
  unfold LineCfg.blk
  congr 1
  rw [show 1 + c.ng * 3 = 1 + 3 * c.ng by ring]
  omega

theorem getD_lt_length {l : List ℕ} {s j : ℕ} (hj : j < l.getD s 0) : s < l.length := by
  by_contra h
  rw [List.getD_eq_default _ _ (by omega)] at hj
  omega

/-- The object of a class whose `setup` sets `num_param_var`, for the data of `c`. -/
def LineCfg.pyObj (c : LineCfg) (cls : Mode) (low upp : ℕ) : PyObj :=
  pySetup cls (c.nl.length, c.nl) c.uniVar c.uniTf low upp

theorem LineCfg.pyObj_eq (c : LineCfg) {cls : Mode} (hc : cls = .gmodel ∨ cls = .vmap ∨ cls = .mmap) (low upp : ℕ) :
    c.pyObj cls low upp = ⟨cls, c.nl.length, c.nl, c.numVar, c.uniTf, low, upp⟩ := by
  rcases hc with rfl | rfl | rfl <;> rfl

/-- The block `timelag` looks at for data set `s` and line `j`. -/
theorem timelag_block (c : LineCfg) {cls : Mode} (hc : cls = .gmodel ∨ cls = .vmap ∨ cls = .mmap) (low upp : ℕ)
    (post : ℕ → List (List ℝ)) (hr : c.Rows low upp post) (s j s' j' : ℕ) (hj : j < c.nl.getD s 0)
    (hj' : j' < c.nl.getD s' 0)
    (hb : (if c.uniTf = 1 then 0 else (c.nl.take (s - 1)).sum) + j = c.bno s' j') :
    (c.pyObj cls low upp).timelag post s j = some (c.columns 1 low upp post s' j') := by
  rw [c.pyObj_eq hc]
  have hs := getD_lt_length hj
  unfold PyObj.timelag
  rw [PyObj.asked_ok _ _ _ (by exact hs) (by exact hj)]
  simp only [Option.map_some, Option.some.injEq]
  unfold LineCfg.columns
  refine List.map_congr_left fun q hq => List.map_congr_left fun row hrow => ?_
  have hq := List.mem_range.1 hq
  have hlen := hr (low + q) (by omega) (by omega) row hrow
  have hb' : ({ c with ng := low + q } : LineCfg).bno s' j' = c.bno s' j' := rfl
  by_cases hu : c.uniTf = 1
  · rw [if_pos hu] at hb ⊢
    exact LineCfg.column_slice { c with ng := low + q } 1 s' j' j c.numVar row (.inl rfl) hj' (by rw [hb']; omega) rfl hlen
  · rw [if_neg hu] at hb ⊢
    rw [PyObj.setIdx_eq _ _ _ (by exact hs.le)]
    simp only
    rw [show c.numVar + (1 + 3 * (low + q)) * (c.nl.take (s - 1)).sum + (1 + (low + q) * 3) * j =
      c.numVar + (1 + (low + q) * 3) * ((c.nl.take (s - 1)).sum + j) by ring]
    exact LineCfg.column_slice { c with ng := low + q } 1 s' j' _ c.numVar row (.inl rfl) hj' (by rw [hb']; omega) rfl hlen

/-- The block `width` looks at. -/
theorem width_block (c : LineCfg) {cls : Mode} (hc : cls = .gmodel ∨ cls = .vmap ∨ cls = .mmap) (low upp : ℕ)
    (post : ℕ → List (List ℝ)) (hr : c.Rows low upp post) (s j s' j' : ℕ) (hj : j < c.nl.getD s 0)
    (hj' : j' < c.nl.getD s' 0)
    (hb : (if c.uniTf = 0 then (c.nl.take (s - 1)).sum else 0) + j = c.bno s' j') :
    (c.pyObj cls low upp).width post s j = some (c.columns 2 low upp post s' j') := by
  rw [c.pyObj_eq hc]
  have hs := getD_lt_length hj
  unfold PyObj.width
  rw [PyObj.asked_ok _ _ _ (by exact hs) (by exact hj)]
  simp only [Option.map_some, Option.some.injEq]
  unfold LineCfg.columns
  refine List.map_congr_left fun q hq => List.map_congr_left fun row hrow => ?_
  have hq := List.mem_range.1 hq
  have hlen := hr (low + q) (by omega) (by omega) row hrow
  have hb' : ({ c with ng := low + q } : LineCfg).bno s' j' = c.bno s' j' := rfl
  by_cases hu : c.uniTf = 0
  · rw [if_pos hu] at hb ⊢
    rw [PyObj.setIdx_eq _ _ _ (by exact hs.le)]
    simp only
    rw [show c.numVar + (1 + 3 * (low + q)) * (c.nl.take (s - 1)).sum + (1 + (low + q) * 3) * j =
      c.numVar + (1 + (low + q) * 3) * ((c.nl.take (s - 1)).sum + j) by ring]
    exact LineCfg.column_slice { c with ng := low + q } 2 s' j' _ c.numVar row (.inr rfl) hj' (by rw [hb']; omega) rfl hlen
  · rw [if_neg hu] at hb ⊢
    exact LineCfg.column_slice { c with ng := low + q } 2 s' j' j c.numVar row (.inr rfl) hj' (by rw [hb']; omega) rfl hlen

/-- **C110** (partial: the first data set, or transfer functions common to all data sets).
`get_posterior_sample_timelag(set, line)` and `get_posterior_sample_width(set, line)` hand out, for every number of
components and every sample, the lags and the logarithmic widths of that line. -/
theorem C110_first_partial (c : LineCfg) {cls : Mode} (hc : cls = .gmodel ∨ cls = .vmap ∨ cls = .mmap) (low upp : ℕ)
    (post : ℕ → List (List ℝ)) (hr : c.Rows low upp post) (s j : ℕ) (hj : j < c.nl.getD s 0)
    (h : s = 0 ∨ c.uniTf = 1) :
    (c.pyObj cls low upp).timelag post s j = some (c.columns 1 low upp post s j) ∧
    (c.pyObj cls low upp).width post s j = some (c.columns 2 low upp post s j) := by
  constructor
  · refine timelag_block c hc low upp post hr s j s j hj hj ?_
    unfold LineCfg.bno
    rcases h with rfl | h
    · simp
    · simp [h]
  · refine width_block c hc low upp post hr s j s j hj hj ?_
    unfold LineCfg.bno
    rcases h with rfl | h
    · simp
    · simp [h]

/-- **C110, the rest is false.** For a later data set `s + 1` with transfer functions of its own, the lags and widths
handed out are those of the same line of the data set *before* it, if that has the line; otherwise those of an earlier
line. -/
theorem C110_later (c : LineCfg) {cls : Mode} (hc : cls = .gmodel ∨ cls = .vmap ∨ cls = .mmap) (low upp : ℕ)
    (post : ℕ → List (List ℝ)) (hr : c.Rows low upp post) (s j : ℕ) (hj : j < c.nl.getD (s + 1) 0) (h : c.uniTf = 0) :
    (j < c.nl.getD s 0 →
      (c.pyObj cls low upp).timelag post (s + 1 : ℕ) j = some (c.columns 1 low upp post s j) ∧
      (c.pyObj cls low upp).width post (s + 1 : ℕ) j = some (c.columns 2 low upp post s j)) ∧
    (c.nl.getD s 0 ≤ j →
      (c.pyObj cls low upp).timelag post (s + 1 : ℕ) j = some (c.columns 1 low upp post (s + 1) (j - c.nl.getD s 0)) ∧
      (c.pyObj cls low upp).width post (s + 1 : ℕ) j = some (c.columns 2 low upp post (s + 1) (j - c.nl.getD s 0))) := by
  have hs : s < c.nl.length := by have := getD_lt_length hj; omega
  refine ⟨fun h1 => ?_, fun h1 => ?_⟩
  · constructor
    · exact timelag_block c hc low upp post hr _ j s j hj h1 (by simp [LineCfg.bno, h])
    · exact width_block c hc low upp post hr _ j s j hj h1 (by simp [LineCfg.bno, h])
  · have hb : (c.nl.take s).sum + j = c.bno (s + 1) (j - c.nl.getD s 0) := by
      unfold LineCfg.bno
      rw [if_neg (by omega), List.take_succ_eq_append_getElem hs, List.sum_append]
      rw [List.getD_eq_getElem _ _ hs] at h1 ⊢
      simp only [List.sum_cons, List.sum_nil]
      omega
    constructor
    · exact timelag_block c hc low upp post hr _ j (s + 1) _ hj (by omega) (by simp [h, hb])
    · exact width_block c hc low upp post hr _ j (s + 1) _ hj (by omega) (by simp [h, hb])

/-- **C110, the rest is false.** What is handed out for a later data set is right for all samples only if the data set
before it has no line at all. -/
theorem C110_later_wrong (c : LineCfg) {cls : Mode} (hc : cls = .gmodel ∨ cls = .vmap ∨ cls = .mmap) (n : ℕ) (hn : 0 < n)
    (s j : ℕ) (hj : j < c.nl.getD (s + 1) 0) (h : c.uniTf = 0) :
    (∀ post : ℕ → List (List ℝ), c.Rows n n post →
      (c.pyObj cls n n).timelag post (s + 1 : ℕ) j = some (c.columns 1 n n post (s + 1) j)) ↔ c.nl.getD s 0 = 0 := by
  constructor
  · intro hall
    by_contra h0
    set c' : LineCfg := { c with ng := n } with hc'
    have hne : c.nl ≠ [] := by rintro e; rw [e] at hj; simp at hj
    have hlay := (C39_layout c' hne).2.2
    -- the row that tells all parameters apart
    let post : ℕ → List (List ℝ) := fun _ => [(List.range c'.numParams).map fun i : ℕ => (i : ℝ)]
    have hr : c.Rows n n post := by
      intro m h1 h2 row hrow
      have : m = n := by omega
      subst this
      simp only [post, List.mem_singleton] at hrow
      rw [hrow]; simp [hc']
    have hgood := hall post hr
    have hval : ∀ s' j', j' < c.nl.getD s' 0 → (c.columns 1 n n post s' j' : List (List (List ℝ))) =
        [[(List.range n).map fun k => ((c'.idxLine s' j' + 1 + k * 3 + 1 : ℕ) : ℝ)]] := by
      intro s' j' hj'
      unfold LineCfg.columns
      rw [show n + 1 - n = 1 by omega]
      simp only [List.range_one, List.map_cons, List.map_nil, Nat.add_zero, post, LineCfg.column]
      refine congrArg (fun l : List ℝ => [[l]]) (List.map_congr_left fun k hk => ?_)
      have hk := List.mem_range.1 hk
      have := (C39_layout c' hne).1 (.comp s' j' k 1) ⟨hj', hk, by norm_num⟩
      simp only [Slot.addr] at this
      rw [List.getD_eq_getElem _ _ (by simpa using this)]
      simp [hc']
    have heq : ∀ s' j', j' < c.nl.getD s' 0 → (s', j') ≠ (s + 1, j) →
        c.columns 1 n n post s' j' ≠ c.columns 1 n n post (s + 1) j := by
      intro s' j' hj' hd e
      rw [hval s' j' hj', hval (s + 1) j hj] at e
      have e := congrArg (fun l : List (List (List ℝ)) => ((l.getD 0 []).getD 0 []).getD 0 0) e
      simp only [List.getD_cons_zero] at e
      obtain ⟨m, rfl⟩ : ∃ m, n = m + 1 := ⟨n - 1, by omega⟩
      rw [List.range_succ_eq_map] at e
      simp only [List.map_cons, List.getD_cons_zero, Nat.cast_inj] at e
      have := (hlay (.comp s' j' 0 1) (.comp (s + 1) j 0 1) ⟨hj', hn, by norm_num⟩ ⟨hj, hn, by norm_num⟩).1
        (by simpa [Slot.addr] using e)
      simp only [Slot.Same] at this
      rcases this with ⟨h1, -, -, h2 | h2⟩
      · rw [show c'.uniTf = c.uniTf from rfl] at h2; omega
      · exact hd (by rw [h1, h2])
    rcases Nat.lt_or_ge j (c.nl.getD s 0) with hlt | hge
    · have := ((C110_later c hc n n post hr s j hj h).1 hlt).1
      rw [this, Option.some.injEq] at hgood
      exact heq s j hlt (by simp) hgood
    · have := ((C110_later c hc n n post hr s j hj h).2 hge).1
      rw [this, Option.some.injEq] at hgood
      exact heq (s + 1) (j - c.nl.getD s 0) (by omega) (fun e => by have := (Prod.mk.inj e).2; omega) hgood
  · intro h0 post hr
    have := ((C110_later c hc n n post hr s j hj h).2 (by omega)).1
    rwa [h0, Nat.sub_zero] at this

/-- **C110** (lags and widths common to the data sets, `FlagUniformTranFuns` 2). The lags handed out for a later data set
are looked up in the data set before it, the widths in the first one; the values are right, because the samples have the
same lags and widths in all data sets (C63). -/
theorem C110_shared_partial (c : LineCfg) {cls : Mode} (hc : cls = .gmodel ∨ cls = .vmap ∨ cls = .mmap) (low upp : ℕ)
    (post : ℕ → List (List ℝ)) (hr : c.Rows low upp post) (h : c.uniTf = 2)
    (hshared : ∀ n, low ≤ n → n ≤ upp → ∀ row ∈ post n, ∀ i l k t, l < c.nl.getD i 0 → k < n → t = 1 ∨ t = 2 →
      row.getD ({ c with ng := n }.idxLine i l + 1 + k * 3 + t) 0 = row.getD ({ c with ng := n }.idxLine 0 l + 1 + k * 3 + t) 0)
    (s j : ℕ) (hj : j < c.nl.getD (s + 1) 0) (hprev : j < c.nl.getD s 0) (hfirst : j < c.nl.getD 0 0) :
    (c.pyObj cls low upp).timelag post (s + 1 : ℕ) j = some (c.columns 1 low upp post (s + 1) j) ∧
    (c.pyObj cls low upp).width post (s + 1 : ℕ) j = some (c.columns 2 low upp post (s + 1) j) := by
  have hcol : ∀ t, t = 1 ∨ t = 2 → ∀ i i', j < c.nl.getD i 0 → j < c.nl.getD i' 0 →
      c.columns t low upp post i j = c.columns t low upp post i' j := by
    intro t ht i i' hi hi'
    unfold LineCfg.columns
    refine List.map_congr_left fun q hq => List.map_congr_left fun row hrow => ?_
    have hq := List.mem_range.1 hq
    unfold LineCfg.column
    refine List.map_congr_left fun k hk => ?_
    have hk := List.mem_range.1 hk
    rw [hshared _ (by omega) (by omega) row hrow i j k t hi hk ht, hshared _ (by omega) (by omega) row hrow i' j k t hi' hk ht]
  constructor
  · rw [timelag_block c hc low upp post hr (s + 1) j s j hj hprev (by simp [LineCfg.bno, h])]
    rw [hcol 1 (.inl rfl) s (s + 1) hprev hj]
  · rw [width_block c hc low upp post hr (s + 1) j 0 j hj hfirst (by simp [LineCfg.bno, h])]
    rw [hcol 2 (.inr rfl) 0 (s + 1) hfirst hj]

/-- **C110, the rest is false.** In photometric mode with one data set the two "lags" handed out for the first line are
the logarithm of the damping timescale of the continuum and the lag of the first component; for a later line they are the
logarithmic width of the second component of the line before it and the lag of the first component. -/
theorem C110_pmap (c : LineCfg) (hng : c.ng = 2) (hv : c.uniVar = false) (hu : c.uniTf = 0) (n : ℕ) (hn : c.nl = [n])
    (post : ℕ → List (List ℝ)) (hr : c.Rows 2 2 post) (j : ℕ) (hj : j < n) :
    (c.pyObj .pmap 2 2).timelag post 0 j = some [(post 2).map fun row =>
      [row.getD (match j with
          | 0 => c.idxCon 0 + 2
          | l + 1 => c.idxLine 0 l + 1 + 1 * 3 + 2) 0,
        row.getD (c.idxLine 0 j + 1 + 0 * 3 + 1) 0]] := by
  have hidx : ∀ l, l < n → c.idxLine 0 l = 7 * l + 3 := by
    intro l hl
    rw [c.idxLine_eq 0 l (by rw [hn]; simpa using hl)]
    simp [LineCfg.bno, LineCfg.blk, LineCfg.numVar, hv, hn, hng, hu]
  have hnp : ({ c with ng := 2 } : LineCfg).numParams = 3 + 7 * n := by
    simp [LineCfg.numParams, LineCfg.numVar, LineCfg.numLine, LineCfg.blk, hv, hn, hu]
  unfold PyObj.timelag LineCfg.pyObj pySetup
  rw [show ((0 : ℤ)) = ((0 : ℕ) : ℤ) from rfl]
  rw [PyObj.asked_ok _ 0 j (by simp [hn]) (by simpa [hn] using hj)]
  simp only [Option.map_some, Option.some.injEq, show 2 + 1 - 2 = 1 from rfl, List.range_one, List.map_cons, List.map_nil,
    Nat.add_zero, PyObj.setIdx, List.range_zero, List.foldl_nil, show (0 : ℕ) - 1 = 0 from rfl]
  congr 1
  refine List.map_congr_left fun row hrow => ?_
  have hlen := hr 2 (by omega) (by omega) row hrow
  rw [hnp] at hlen
  rw [if_neg (by norm_num), pySlice_eq (n := 2) (.inl (by omega))]
  rw [show List.range 2 = [0, 1] from rfl]
  simp only [List.map_cons, List.map_nil]
  rw [hidx j hj]
  cases j with
  | zero => simp [LineCfg.idxCon, hv]
  | succ l =>
    simp only
    rw [hidx l (by omega)]
    rw [show 0 + (1 + 2 * 3) * (l + 1) + 2 + 3 * 0 = 7 * l + 3 + 1 + 1 * 3 + 2 by omega,
      show 7 * l + 3 + 1 + 1 * 3 + 2 + 3 * 1 = 7 * (l + 1) + 3 + 1 + 0 * 3 + 1 by omega]

theorem pyFields_head {line : List Char} {n : ℕ} {ns : List ℕ} (h : IsHead line n ns) (tail : List Char) (ht : ':' ∉ tail) :
    pyFields (line ++ tail) = ns.length := by
  obtain ⟨w, ws, rfl, hw, hws⟩ := h
  have hfield : ∀ x m, IsField x m → ':' ∉ x := by
    rintro x m ⟨a, b, rfl, ha, hb⟩ hx
    simp only [List.mem_append] at hx
    rcases hx with hx | hx | hx
    · rcases ha _ hx with hx | hx <;> revert hx <;> decide
    · have := Nat.isDigit_of_mem_toDigits (b := 10) (by norm_num) (by norm_num) hx
      revert this; decide
    · rcases hb _ hx with hx | hx | hx <;> revert hx <;> decide
  have hnone : ∀ x : List Char, ':' ∉ x → x.filter (· == ':') = [] := by
    intro x hx
    refine List.filter_eq_nil_iff.2 fun a ha h => hx ?_
    simp only [beq_iff_eq] at h
    exact h ▸ ha
  unfold pyFields
  simp only [List.cons_append, List.drop_succ_cons, List.drop_zero, List.filter_append, hnone w (hfield w n hw),
    hnone tail ht, List.nil_append, List.append_nil]
  clear hw
  induction hws with
  | nil => simp
  | cons h1 _ ih =>
    simp only [List.map_cons, List.flatten_cons, List.filter_append, List.length_append, List.length_cons]
    rw [List.filter_cons_of_pos (by decide), hnone _ (hfield _ _ h1), ih]
    simp
    omega

/-- **C110** (dimensions). From a data file whose empty light curves stand last in their data sets, the interface takes as
numbers of lines the numbers of announced light curves; the C code takes those of light curves with points. -/
theorem C110_dims (vmap : Bool) (nums : List Char → List ℝ) (path body first : List Char) (heads : List (List Char))
    (counts : List (ℕ × List ℕ)) (hfirst : IsHead first counts.length [])
    (hheads : List.Forall₂ (fun l c => IsHead l c.1 c.2) heads counts) (hlen : ∀ l ∈ first :: heads, l.length < 255)
    (hvmap : vmap = true → ∀ c ∈ counts, c.1 = 0) (hlast : ∀ c ∈ counts, EmptyLast c.2) (sets : List FSet)
    (h : readMain vmap nums path (((first :: heads).map fun l => l ++ ['\n']).flatten ++ body) = .ok sets) :
    heads.map (fun l => pyFields (l ++ ['\n'])) = counts.map (fun c => c.2.length) ∧
    sets.map (fun s => s.lines.length) = counts.map fun c => (c.2.filter (0 < ·)).length := by
  have hd : IsData (((first :: heads).map fun l => l ++ ['\n']).flatten ++ body) counts body :=
    ⟨first, heads, rfl, hfirst, hheads, hlen⟩
  have h1 := ((C42_read_partial vmap nums path _ body counts hd hvmap hlast sets).1 h).1
  constructor
  · clear h h1 hd hlen hfirst hvmap hlast
    induction hheads with
    | nil => rfl
    | cons h _ ih =>
      simp only [List.map_cons]
      rw [pyFields_head h _ (by decide), ih]
  · have := congrArg (List.map fun p : ℕ × List ℕ => p.2.length) h1
    simp only [List.map_map] at this
    rw [show (fun s : FSet => s.lines.length) =
      (fun p : ℕ × List ℕ => p.2.length) ∘ fun s : FSet => (s.con.length, s.lines.map List.length) by
        funext s; simp, this]
    rfl

/-- **C110** (dimensions). So the two agree if and only if no light curve is empty. -/
theorem C110_dims_iff (vmap : Bool) (nums : List Char → List ℝ) (path body first : List Char) (heads : List (List Char))
    (counts : List (ℕ × List ℕ)) (hfirst : IsHead first counts.length [])
    (hheads : List.Forall₂ (fun l c => IsHead l c.1 c.2) heads counts) (hlen : ∀ l ∈ first :: heads, l.length < 255)
    (hvmap : vmap = true → ∀ c ∈ counts, c.1 = 0) (hlast : ∀ c ∈ counts, EmptyLast c.2) (sets : List FSet)
    (h : readMain vmap nums path (((first :: heads).map fun l => l ++ ['\n']).flatten ++ body) = .ok sets) :
    heads.map (fun l => pyFields (l ++ ['\n'])) = sets.map (fun s => s.lines.length) ↔
      ∀ c ∈ counts, ∀ n ∈ c.2, 0 < n := by
  obtain ⟨h1, h2⟩ := C110_dims vmap nums path body first heads counts hfirst hheads hlen hvmap hlast sets h
  rw [h1, h2, List.map_inj_left]
  refine forall_congr' fun c => forall_congr' fun _ => ?_
  rw [eq_comm, List.length_filter_eq_length_iff]
  simp

/-- Two data sets with two and one lines, three components: 31 parameters, rows that tell them apart. -/
def pyPostEx : ℕ → List (List ℝ) := fun n => [(List.range (6 + (1 + 3 * n) * 3)).map fun i : ℕ => (i : ℝ)]

theorem pyPostEx_rows : (lineCfgEx 0 0 [2, 1] false).Rows 1 3 pyPostEx := by
  intro n _ _ row hrow
  simp only [pyPostEx, List.mem_singleton] at hrow
  subst hrow
  simp [LineCfg.numParams, LineCfg.numVar, LineCfg.numLine, LineCfg.blk, lineCfgEx]
  ring

/-- The hypotheses are met: the second line of the first data set; the lags of two components are columns 12 and 15. -/
example : ((lineCfgEx 0 0 [2, 1] false).pyObj .gmodel 1 3).timelag pyPostEx (0 : ℕ) (1 : ℕ) =
    some ((lineCfgEx 0 0 [2, 1] false).columns 1 1 3 pyPostEx 0 1) :=
  (C110_first_partial _ (.inl rfl) 1 3 _ pyPostEx_rows 0 1 (by decide) (.inl rfl)).1

/-- The line of the second data set: the lags of the first line of the first data set come out. -/
example : ((lineCfgEx 0 0 [2, 1] false).pyObj .gmodel 1 3).timelag pyPostEx ((0 + 1 : ℕ) : ℤ) (0 : ℕ) =
    some ((lineCfgEx 0 0 [2, 1] false).columns 1 1 3 pyPostEx 0 0) :=
  ((C110_later _ (.inl rfl) 1 3 _ pyPostEx_rows 0 0 (by decide) rfl).1 (by decide)).1

/-- ... which is wrong. -/
example : ¬ ∀ post : ℕ → List (List ℝ), (lineCfgEx 0 0 [2, 1] false).Rows 2 2 post →
    ((lineCfgEx 0 0 [2, 1] false).pyObj .gmodel 2 2).timelag post ((0 + 1 : ℕ) : ℤ) (0 : ℕ) =
      some ((lineCfgEx 0 0 [2, 1] false).columns 1 2 2 post (0 + 1) 0) := fun h => by
  have := (C110_later_wrong (lineCfgEx 0 0 [2, 1] false) (.inl rfl) 2 (by norm_num) 0 0 (by decide) rfl).1 h
  revert this; decide

/-- Shared lags and widths: rows whose columns all agree. -/
example : ((lineCfgEx 0 2 [1, 1] false).pyObj .mmap 2 2).timelag
      (fun n => [List.replicate ({ lineCfgEx 0 2 [1, 1] false with ng := n }).numParams 5]) ((0 + 1 : ℕ) : ℤ) (0 : ℕ) =
    some ((lineCfgEx 0 2 [1, 1] false).columns 1 2 2
      (fun n => [List.replicate ({ lineCfgEx 0 2 [1, 1] false with ng := n }).numParams 5]) (0 + 1) 0) := by
  refine (C110_shared_partial _ (.inr (.inr rfl)) 2 2 _ (fun n _ _ row hrow => ?_) rfl
    (fun n _ _ row hrow i l k t hl hk ht => ?_) 0 0 (by decide) (by decide) (by decide)).1
  · simp only [List.mem_singleton] at hrow
    simp [hrow]
  · simp only [List.mem_singleton] at hrow
    subst hrow
    have hlt : ∀ i, l < (lineCfgEx 0 2 [1, 1] false).nl.getD i 0 →
        ({ lineCfgEx 0 2 [1, 1] false with ng := n }).idxLine i l + 1 + k * 3 + t <
          ({ lineCfgEx 0 2 [1, 1] false with ng := n }).numParams := fun i hi =>
      (C39_layout { lineCfgEx 0 2 [1, 1] false with ng := n } (by simp [lineCfgEx])).1 (.comp i l k t)
        ⟨hi, hk, by omega⟩
    have h0 : l < (lineCfgEx 0 2 [1, 1] false).nl.getD 0 0 := by
      have hi := getD_lt_length hl
      simp only [lineCfgEx, List.length_cons, List.length_nil] at hi
      have : i = 0 ∨ i = 1 := by omega
      rcases this with rfl | rfl <;> simpa [lineCfgEx] using hl
    rw [List.getD_replicate _ (hlt i hl), List.getD_replicate _ (hlt 0 h0)]

/-- Photometric mode, one band. -/
example : ({ lineCfgEx 0 0 [1] false with ng := 2 }.pyObj .pmap 2 2).timelag
      (fun _ => [(List.range 10).map fun i : ℕ => (i : ℝ)]) 0 (0 : ℕ) = some [[[2, 5]]] := by
  rw [C110_pmap { lineCfgEx 0 0 [1] false with ng := 2 } rfl rfl rfl 1 rfl _ ?_ 0 (by norm_num)]
  · rw [LineCfg.idxLine_eq _ 0 0 (by decide)]
    simp [LineCfg.idxCon, LineCfg.bno, lineCfgEx, LineCfg.numVar, List.range_succ]
  · intro n h1 h2 row hrow
    have : n = 2 := by omega
    subst this
    simp only [List.mem_singleton] at hrow
    subst hrow
    simp [LineCfg.numParams, LineCfg.numVar, LineCfg.numLine, LineCfg.blk, lineCfgEx]

/-- One continuum point, one line with one point, then an empty line: two lines for the interface, one for the C code. -/
example (sets : List FSet)
    (h : readMain false (fun _ => [1, 2, 3, 4, 5, 6]) [] (((["# 1".toList, "# 1:1:0".toList]).map fun l => l ++ ['\n']).flatten
      ++ ['x']) = .ok sets) :
    (["# 1:1:0".toList].map fun l => pyFields (l ++ ['\n'])) = [2] ∧ sets.map (fun s => s.lines.length) = [1] := by
  have hf : ∀ n, IsField (Nat.toDigits 10 n) n := fun n => ⟨[], [], by simp, by simp, by simp⟩
  have := C110_dims false _ [] ['x'] "# 1".toList ["# 1:1:0".toList] [(1, [1, 0])]
    ⟨" 1".toList, [], rfl, ⟨[' '], [], by decide, by simp, by simp⟩, .nil⟩
    (.cons ⟨" 1".toList, ["1".toList, "0".toList], by decide, ⟨[' '], [], by decide, by simp, by simp⟩,
      .cons (hf 1) (.cons (hf 0) .nil)⟩ .nil)
    (by decide) (by simp) (by
      intro c hc
      simp only [List.mem_singleton] at hc
      subst hc
      intro i j hij hi n hn
      match j, hij with
      | 1, _ => simpa using hn.symm
      | j + 2, _ => simp at hn) sets h
  simpa using this

end Mica
