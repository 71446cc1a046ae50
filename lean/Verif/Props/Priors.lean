import Verif.Proof.Priors
import Mathlib.Data.List.GetD
import Mathlib.Tactic.Linarith
import Mathlib.Tactic.IntervalCases

/-!
# C49 and C56: priors given as text

C49: the prior strings `[v₀:v₁:…]`; C56: the file of parameter ranges (docs/para_prior.rst: "The lines
starting with "#" will be neglected").
-/

namespace Mica

variable (lf : List Char → Option (ℝ × List Char))

private theorem prior_tail {lf : List Char → Option (ℝ × List Char)} {str : List Char} {vs : List ℝ}
    (h : IsPrior lf str vs) : ∃ w ws v vt, str ≠ [] ∧ str.drop 1 = priorTail w ws ∧ IsNum lf w v ∧
      List.Forall₂ (IsNum lf) ws vt ∧ vs = v :: vt := by
  obtain ⟨w, ws, v, vt, rfl, h1, h2, h3⟩ := h
  exact ⟨w, ws, v, vt, by simp, rfl, h1, h2, h3⟩

/-- **C49.** `StrLagPrior`: the values are stored in the order of the string, so that components `0, 1, …`
get the first, second, … pair; too few values stop the program. -/
theorem C49_lag (str : List Char) (vs : List ℝ) (h : IsPrior lf str vs) (ng : ℕ) (hng : 1 ≤ ng) :
    (2 * ng ≤ vs.length → lagPriorOf lf ng str = .ok (vs.take (2 * ng))) ∧
      (vs.length < 2 * ng → lagPriorOf lf ng str = .exit) := by
  obtain ⟨w, ws, v, vt, -, h1, h2, h3, rfl⟩ := prior_tail h
  unfold lagPriorOf
  rw [h1]
  simp only [List.length_cons]
  constructor
  · intro hl
    rw [priorLoop_ok h2 h3 _ (by omega)]
    show allSet _ = _
    rw [allSet_some]
    congr 2; omega
  · intro hl
    rw [priorLoop_few h2 h3 _ (by omega)]
    rfl

/-- **C49.** `StrWidthPrior`: likewise, with the logarithms of the values, all of which must be positive. -/
theorem C49_width (str : List Char) (vs : List ℝ) (h : IsPrior lf str vs) (ng : ℕ) (hng : 1 ≤ ng)
    (dflt : ℝ × ℝ) :
    (2 * ng ≤ vs.length → (∀ v ∈ vs.take (2 * ng), 0 < v) →
        widthPriorOf lf ng dflt str = .ok ((vs.take (2 * ng)).map Real.log)) ∧
      (vs.length < 2 * ng ∨ (∃ v ∈ vs.take (2 * ng), v ≤ 0) → widthPriorOf lf ng dflt str = .exit) := by
  obtain ⟨w, ws, v, vt, h0, h1, h2, h3, rfl⟩ := prior_tail h
  unfold widthPriorOf
  rw [if_neg h0, h1]
  simp only [List.length_cons]
  have e : ng * 2 - 1 + 1 = 2 * ng := by omega
  constructor
  · intro hl hpos
    rw [priorLoop_ok h2 h3 _ (by omega), e]
    exact widthLogs_ok _ hpos
  · intro hbad
    by_cases hl : vt.length + 1 < 2 * ng
    · rw [priorLoop_few h2 h3 _ (by omega)]
      rfl
    · rw [priorLoop_ok h2 h3 _ (by omega), e]
      exact widthLogs_exit _ (hbad.resolve_left hl)

private theorem pairs_get : ∀ (m i : ℕ) (a b : ℝ), i < m → (List.replicate m [a, b]).flatten[2 * i]? = some a ∧
    (List.replicate m [a, b]).flatten[2 * i + 1]? = some b := by
  intro m
  induction m with
  | zero => intro i a b hi; omega
  | succ m ih =>
    intro i a b hi
    rw [List.replicate_succ, List.flatten_cons]
    cases i with
    | zero => simp
    | succ i =>
      have := ih i a b (by omega)
      rw [show 2 * (i + 1) = 2 * i + 2 by ring, show 2 * i + 2 + 1 = (2 * i + 1) + 2 by ring]
      simpa using this

/-- **C49.** Without `StrRatioPrior` every ratio ranges from 1/1000 to 1. -/
theorem C49_ratio_default (ng : ℕ) :
    ∃ r, ratioPriorOf lf ng [] = .ok r ∧ r.length = 2 * (ng - 1) ∧
      ∀ i < ng - 1, r[2 * i]? = some (Real.log 0.001) ∧ r[2 * i + 1]? = some 0 := by
  unfold ratioPriorOf
  rw [if_pos rfl]
  refine ⟨_, rfl, ?_, ?_⟩
  · simp only [List.length_flatten, List.map_replicate, List.length_cons, List.length_nil,
      List.sum_replicate, smul_eq_mul]
    omega
  · intro i hi
    have := pairs_get _ _ (Real.log (1 / 1000)) (Real.log 1) hi
    rw [Real.log_one] at this ⊢
    rwa [show (0.001 : ℝ) = 1 / 1000 by norm_num]

/-- **C49.** `StrRatioPrior` with a single pair: every component gets the logarithms of that pair.  Missing:
more pairs, see `C49_ratio_pairs`. -/
theorem C49_ratio_partial (str : List Char) (lo hi : ℝ) (h : IsPrior lf str [lo, hi]) (ng : ℕ) (hng : 2 ≤ ng) :
    ∃ r, ratioPriorOf lf ng str = .ok r ∧ r.length = 2 * (ng - 1) ∧
      ∀ i < ng - 1, r[2 * i]? = some (Real.log lo) ∧ r[2 * i + 1]? = some (Real.log hi) := by
  obtain ⟨w, ws, v, vt, h0, h1, h2, h3, h4⟩ := prior_tail h
  simp only [List.cons.injEq] at h4
  obtain ⟨rfl, rfl⟩ := h4
  have hcount := countColons_tail h2 h3
  cases h3 with
  | @cons x y ws _ h3 h5 =>
    cases h5
    unfold ratioPriorOf
    rw [if_neg h0, h1, hcount]
    simp only [List.length_cons, List.length_nil]
    rw [if_neg (by norm_num)]
    rw [show (0 + 1) * 2 = 2 from rfl, ratioLoop_two h2 h3 _ (by omega)]
    refine ⟨_, rfl, ?_, ?_⟩
    · simp only [List.length_append, List.length_flatten, List.map_replicate, List.length_cons, List.length_nil,
        List.sum_replicate, smul_eq_mul]
      omega
    · intro i hilt
      have e : [Real.log lo, Real.log hi] ++ (List.replicate (ng - 1 - (0 + 1))
          [[Real.log lo, Real.log hi].getD ((0 + 1 - 1) * 2) 0, [Real.log lo, Real.log hi].getD ((0 + 1 - 1) * 2 + 1) 0]).flatten
          = (List.replicate (ng - 1) [Real.log lo, Real.log hi]).flatten := by
        rw [show ng - 1 = (ng - 1 - (0 + 1)) + 1 by omega, List.replicate_succ, List.flatten_cons]
        simp
      rw [e]
      exact pairs_get _ _ _ _ hilt

/-- **C49, negation.** `StrRatioPrior` with two or more pairs makes the program use a null pointer (or write
past the end of the array). -/
theorem C49_ratio_pairs (str : List Char) (vs : List ℝ) (h : IsPrior lf str vs) (ng : ℕ) (n : ℕ)
    (hn : 2 ≤ n) (hl : vs.length = 2 * n) : ratioPriorOf lf ng str = .ub := by
  obtain ⟨w, ws, v, vt, h0, h1, h2, h3, rfl⟩ := prior_tail h
  simp only [List.length_cons] at hl
  unfold ratioPriorOf
  rw [if_neg h0, h1, countColons_tail h2 h3, if_neg (by omega), ratioLoop_ub h2 h3 _ _ (by omega)]
  rfl

/-- **C49.** `StrGapPrior` for a single data set: centre and half of the width.  Missing: more data sets,
see `C49_gap_shift`. -/
theorem C49_gap_partial (str : List Char) (c w : ℝ) (vt : List ℝ) (h : IsPrior lf str (c :: w :: vt)) :
    gapPriorOf lf 1 str = .ok [(c, w / 2)] := by
  obtain ⟨x, ws, v, vs, -, h1, h2, h3, h4⟩ := prior_tail h
  simp only [List.cons.injEq] at h4
  obtain ⟨rfl, rfl⟩ := h4
  unfold gapPriorOf
  rw [h1, gapLoop_ok h2 h3 0 (by simp)]
  rfl

/-- **C49, negation.** `StrGapPrior` for several data sets: set `i` gets values `i` and `i+1` of the string
instead of `2i` and `2i+1`; so the second set's centre is the first set's width. -/
theorem C49_gap_shift (str : List Char) (vs : List ℝ) (h : IsPrior lf str vs) (nset : ℕ) (hn : 2 ≤ nset)
    (hl : vs.length = 2 * nset) :
    ∃ g, gapPriorOf lf nset str = .ok g ∧ g.length = nset ∧
      ∀ i < nset, g[i]? = some (vs.getD i 0, vs.getD (i + 1) 0 / 2) := by
  obtain ⟨w, ws, v, vt, -, h1, h2, h3, rfl⟩ := prior_tail h
  simp only [List.length_cons] at hl
  unfold gapPriorOf
  rw [h1, gapLoop_ok h2 h3 _ (by omega)]
  refine ⟨_, rfl, by simp; omega, fun i hi => ?_⟩
  rw [List.getElem?_map, List.getElem?_range (by omega)]
  rfl

/-! ## C56: the file of parameter ranges -/

variable (parse : List Char → Option ParLine)

/-- **C56.** A file of lines each holding a range of an existing parameter is loaded: the parameters listed
get the range, flag and value of their last line, all others keep theirs.  Missing: comments and
blank lines, see `C56_comment` and `C56_blank`, and a last line without newline, see `C56_last_line`. -/
theorem C56_load_partial (ls : List (List Char)) (es : List ParLine) (h : List.Forall₂ (IsParLine parse) ls es)
    (np : ℕ) (hidx : ∀ e ∈ es, 0 ≤ e.idx ∧ e.idx < np) (t : ParTab)
    (ht : t.range.length = np ∧ t.fix.length = np ∧ t.val.length = np) :
    ∃ t', loadParNames parse np (textOf ls []) t = .ok t' ∧
      t'.range.length = np ∧ t'.fix.length = np ∧ t'.val.length = np ∧
      (∀ i < np, (∀ e ∈ es, e.idx ≠ i) →
        t'.range[i]? = t.range[i]? ∧ t'.fix[i]? = t.fix[i]? ∧ t'.val[i]? = t.val[i]?) ∧
      (∀ es1 e es2, es = es1 ++ e :: es2 → (∀ x ∈ es2, x.idx ≠ e.idx) →
        t'.range[e.idx.toNat]? = some (e.lo, e.hi) ∧ t'.fix[e.idx.toNat]? = some e.fix ∧
        t'.val[e.idx.toNat]? = some e.val) := by
  obtain ⟨hnl, hlen⟩ := parLines_props h
  let st : ParTab → ParLine → ParTab := fun t e => ⟨t.range.set e.idx.toNat (e.lo, e.hi),
    t.fix.set e.idx.toNat e.fix, t.val.set e.idx.toNat e.val⟩
  have hlenf : ∀ (es : List ParLine) (t : ParTab), (es.foldl st t).range.length = t.range.length ∧
      (es.foldl st t).fix.length = t.fix.length ∧ (es.foldl st t).val.length = t.val.length := by
    intro es
    induction es with
    | nil => intro t; exact ⟨rfl, rfl, rfl⟩
    | cons e es ih => intro t; rw [List.foldl_cons]; have := ih (st t e); simpa [st] using this
  have hkeep : ∀ (es : List ParLine) (t : ParTab) (i : ℕ), (∀ e ∈ es, e.idx.toNat ≠ i) →
      (es.foldl st t).range[i]? = t.range[i]? ∧ (es.foldl st t).fix[i]? = t.fix[i]? ∧
      (es.foldl st t).val[i]? = t.val[i]? := by
    intro es
    induction es with
    | nil => intro t i _; exact ⟨rfl, rfl, rfl⟩
    | cons e es ih =>
      intro t i hi
      rw [List.foldl_cons]
      obtain ⟨a1, a2, a3⟩ := ih (st t e) i fun x hx => hi x (by simp [hx])
      have := hi e (by simp)
      rw [a1, a2, a3]
      simp [st, List.getElem?_set_ne this]
  refine ⟨es.foldl st t, ?_, ?_, ?_, ?_, ?_, ?_⟩
  · unfold loadParNames
    rw [loadPieces ls [] hnl hlen (by simp) (by simp), loadLoop_entries h np _ _ _ hidx]
    rfl
  · rw [(hlenf es t).1, ht.1]
  · rw [(hlenf es t).2.1, ht.2.1]
  · rw [(hlenf es t).2.2, ht.2.2]
  · intro i _ hne
    refine hkeep es t i fun e he heq => hne e he ?_
    have := (hidx e he).1
    omega
  · rintro es1 e es2 rfl hlast
    have hI := hidx e (by simp)
    rw [List.foldl_append, List.foldl_cons]
    obtain ⟨a1, a2, a3⟩ := hkeep es2 (st (es1.foldl st t) e) e.idx.toNat fun x hx heq => hlast x hx (by
      have := (hidx x (by simp [hx])).1
      omega)
    rw [a1, a2, a3]
    obtain ⟨b1, b2, b3⟩ := hlenf es1 t
    have hN : e.idx.toNat < np := by omega
    simp only [st]
    rw [List.getElem?_set_self (by rw [b1, ht.1]; exact hN), List.getElem?_set_self (by rw [b2, ht.2.1]; exact hN),
      List.getElem?_set_self (by rw [b3, ht.2.2]; exact hN)]
    exact ⟨rfl, rfl, rfl⟩

/-- **C56, negation.** A comment line behind any number of good lines: the program never returns. -/
theorem C56_comment (ls : List (List Char)) (es : List ParLine) (h : List.Forall₂ (IsParLine parse) ls es)
    (np : ℕ) (hidx : ∀ e ∈ es, 0 ≤ e.idx ∧ e.idx < np) (t : ParTab) (com : List Char) (hcom : '\n' ∉ com)
    (hlen : com.length < 253) (rest : List Char) :
    loadParNames parse np (textOf (ls ++ [('#' :: com)]) rest) t = .hang := by
  obtain ⟨hnl, hl⟩ := parLines_props h
  have key : ∃ tail, fgetsAll 254 (textOf (ls ++ [('#' :: com)]) rest)
      = ls.map (· ++ ['\n']) ++ (('#' :: com) ++ ['\n']) :: tail := by
    clear h hidx
    induction ls with
    | nil =>
      have e : textOf ([] ++ [('#' :: com)]) rest = ('#' :: com) ++ ('\n' :: rest) := by simp [textOf]
      rw [e, fgetsAll_cons (by simp), fgetsC_line (by simp [hcom]) (by simp; omega)]
      exact ⟨_, rfl⟩
    | cons l ls ih =>
      obtain ⟨tail, ht⟩ := ih (fun x hx => hnl x (by simp [hx])) (fun x hx => hl x (by simp [hx]))
      have e : textOf (l :: ls ++ [('#' :: com)]) rest = l ++ ('\n' :: textOf (ls ++ [('#' :: com)]) rest) := by
        simp [textOf]
      rw [e, fgetsAll_cons (by simp), fgetsC_line (hnl l (by simp)) (by have := hl l (by simp); omega), ht]
      exact ⟨tail, rfl⟩
  obtain ⟨tail, ht⟩ := key
  unfold loadParNames
  rw [ht, loadLoop_entries h np _ _ _ hidx, loadLoop.eq_def]
  dsimp only
  rw [if_neg (by
    rw [show '#' :: com ++ ['\n'] = ('#' :: com) ++ ['\n'] from rfl, List.getLast?_append]
    simp)]
  obtain ⟨w, hw⟩ := nextWord_nonblank (a := []) (c := '#') (r := com ++ ['\n']) (by simp) (by decide)
  simp only [List.nil_append] at hw
  simp only [List.cons_append, hw, if_true]

/-- **C56, negation.** A blank line behind at least one good line: the program never returns. -/
theorem C56_blank (ls : List (List Char)) (es : List ParLine) (h : List.Forall₂ (IsParLine parse) ls es)
    (hne : ls ≠ []) (np : ℕ) (hidx : ∀ e ∈ es, 0 ≤ e.idx ∧ e.idx < np) (t : ParTab) (bl : List Char)
    (hbl : ∀ c ∈ bl, c = ' ' ∨ c = '\t') (hlen : bl.length < 254) (rest : List Char) :
    loadParNames parse np (textOf (ls ++ [bl]) rest) t = .hang := by
  obtain ⟨hnl, hl⟩ := parLines_props h
  have hbn : '\n' ∉ bl := by
    intro hn
    rcases hbl _ hn with h | h <;> exact absurd h (by decide)
  have key : ∃ tail, fgetsAll 254 (textOf (ls ++ [bl]) rest) = ls.map (· ++ ['\n']) ++ (bl ++ ['\n']) :: tail := by
    clear h hidx hne
    induction ls with
    | nil =>
      have e : textOf ([] ++ [bl]) rest = bl ++ ('\n' :: rest) := by simp [textOf]
      rw [e, fgetsAll_cons (by simp), fgetsC_line hbn (by omega)]
      exact ⟨_, rfl⟩
    | cons l ls ih =>
      obtain ⟨tail, ht⟩ := ih (fun x hx => hnl x (by simp [hx])) (fun x hx => hl x (by simp [hx]))
      have e : textOf (l :: ls ++ [bl]) rest = l ++ ('\n' :: textOf (ls ++ [bl]) rest) := by
        simp [textOf]
      rw [e, fgetsAll_cons (by simp), fgetsC_line (hnl l (by simp)) (by have := hl l (by simp); omega), ht]
      exact ⟨tail, rfl⟩
  obtain ⟨tail, ht⟩ := key
  unfold loadParNames
  rw [ht, loadLoop_entries h np _ _ _ hidx, loadLoop, if_neg (by simp), nextWord_blank]
  · have : (false || !ls.isEmpty) = true := by simpa using hne
    simp [this]
  · intro c hc
    rcases List.mem_append.1 hc with hc | hc
    · rcases hbl c hc with rfl | rfl <;> decide
    · rw [List.mem_singleton.1 hc]; decide

/-- **C56, negation.** A last line without newline is dropped, whatever it holds. -/
theorem C56_last_line (ls : List (List Char)) (es : List ParLine) (h : List.Forall₂ (IsParLine parse) ls es)
    (np : ℕ) (hidx : ∀ e ∈ es, 0 ≤ e.idx ∧ e.idx < np) (t : ParTab) (last : List Char) (hnl : '\n' ∉ last)
    (hlen : last.length < 254) :
    loadParNames parse np (textOf ls last) t = loadParNames parse np (textOf ls []) t := by
  obtain ⟨h1, h2⟩ := parLines_props h
  unfold loadParNames
  rw [loadPieces ls last h1 h2 hnl hlen, loadPieces ls [] h1 h2 (by simp) (by simp),
    loadLoop_entries h np _ _ _ hidx, loadLoop_entries h np _ _ _ hidx]
  by_cases hl : last = []
  · simp [hl]
  · simp only [hl, if_false, if_true]
    rw [loadLoop.eq_def]
    dsimp only
    have hg : last.getLast? ≠ some '\n' := fun he => hnl (List.mem_of_getLast? he)
    rw [if_pos ⟨hg, by omega⟩]
    rfl

/-- **C56.** Index too large: the program stops.  Negative index: a write in front of the arrays. -/
theorem C56_index (l : List Char) (e : ParLine) (h : IsParLine parse l e) (np : ℕ) (t : ParTab)
    (ls : List (List Char)) (hls : ∀ x ∈ ls, '\n' ∉ x ∧ x.length < 254) :
    ((np : ℤ) ≤ e.idx → loadParNames parse np (textOf (l :: ls) []) t = .exit) ∧
      (e.idx < 0 → loadParNames parse np (textOf (l :: ls) []) t = .ub) := by
  have hp := loadPieces (l :: ls) [] (by
      simp only [List.forall_mem_cons]; exact ⟨h.1, fun x hx => (hls x hx).1⟩)
    (by simp only [List.forall_mem_cons]; exact ⟨h.2.1, fun x hx => (hls x hx).2⟩) (by simp) (by simp)
  unfold loadParNames
  rw [hp, List.map_cons, List.cons_append, loadLoop_entry h]
  constructor
  · intro hi; unfold storeLine; rw [if_pos hi]; rfl
  · intro hi
    unfold storeLine
    rw [if_neg (by omega), if_pos hi]
    rfl

/-- **C56.** Combination with the continuum analysis: every range of a variability parameter becomes the
intersection of the loaded range with mean ± 5 deviations, not empty if the loaded one was not, and
the program stops if the two do not meet; parameters with zero deviation and all others keep the
loaded range. -/
theorem C56_drw (par std : ℕ → ℝ) (n : ℕ) (r r' : ℕ → ℝ × ℝ) (h : drwLoad par std n r = .ok r') :
    ∀ i, ((∃ k < n, i = 3 * k + 1 ∨ i = 3 * k + 2) ∧ 0 < std i →
        (r' i).1 = max (r i).1 (par i - 5 * std i) ∧ (r' i).2 = min (r i).2 (par i + 5 * std i) ∧
          ((r i).1 ≤ (r i).2 → (r' i).1 ≤ (r' i).2)) ∧
      (¬ ((∃ k < n, i = 3 * k + 1 ∨ i = 3 * k + 2) ∧ 0 < std i) → r' i = r i) := by
  have one : ∀ (q q' : ℝ × ℝ) (m s : ℝ), drwRange q m s = .ok q' →
      (0 < s → q'.1 = max q.1 (m - 5 * s) ∧ q'.2 = min q.2 (m + 5 * s) ∧ (q.1 ≤ q.2 → q'.1 ≤ q'.2)) ∧
      (¬ 0 < s → q' = q) := by
    intro q q' m s hq
    unfold drwRange at hq
    by_cases hs : 0 < s
    · rw [if_pos hs] at hq
      split_ifs at hq with hc
      simp only [Res.ok.injEq] at hq
      push Not at hc
      subst hq
      exact ⟨fun _ => ⟨rfl, rfl, fun hle => max_le (le_min hle hc.1) (le_min hc.2 (by linarith))⟩,
        fun hn => absurd hs hn⟩
    · rw [if_neg hs] at hq
      simp only [Res.ok.injEq] at hq
      exact ⟨fun hp => absurd hp hs, fun _ => hq.symm⟩
  induction n generalizing r' with
  | zero =>
    simp only [drwLoad, Res.ok.injEq] at h
    subst h
    intro i
    exact ⟨fun ⟨⟨k, hk, _⟩, _⟩ => absurd hk (Nat.not_lt_zero k), fun _ => rfl⟩
  | succ n ih =>
    simp only [drwLoad, Res.bind_eq_ok, Res.ok.injEq] at h
    obtain ⟨r1, h1, a, ha, b, hb, rfl⟩ := h
    have ih1 := ih r1 h1
    have fresh : ∀ i, 3 * n < i → r1 i = r i := by
      intro i hi
      refine (ih1 i).2 ?_
      rintro ⟨⟨k, hk, hk' | hk'⟩, -⟩ <;> clear ih ih1 <;> omega
    intro i
    by_cases i1 : i = 3 * n + 1
    · subst i1
      simp only [if_true]
      rw [fresh _ (by omega)] at ha
      obtain ⟨o1, o2⟩ := one _ _ _ _ ha
      exact ⟨fun hh => o1 hh.2, fun hh => o2 fun hs => hh ⟨⟨n, by omega, Or.inl rfl⟩, hs⟩⟩
    · by_cases i2 : i = 3 * n + 2
      · subst i2
        simp only [i1, if_false, if_true]
        rw [fresh _ (by omega)] at hb
        obtain ⟨o1, o2⟩ := one _ _ _ _ hb
        exact ⟨fun hh => o1 hh.2, fun hh => o2 fun hs => hh ⟨⟨n, by omega, Or.inr rfl⟩, hs⟩⟩
      · simp only [i1, i2, if_false]
        have := ih1 i
        refine ⟨fun hh => this.1 ⟨?_, hh.2⟩, fun hh => this.2 fun hh' => hh ⟨?_, hh'.2⟩⟩
        · obtain ⟨⟨k, hk, hk'⟩, -⟩ := hh
          have hkn : k ≠ n := by rintro rfl; exact hk'.elim i1 i2
          exact ⟨k, by omega, hk'⟩
        · obtain ⟨⟨k, hk, hk'⟩, -⟩ := hh'
          exact ⟨k, by omega, hk'⟩

/-! ## Concrete cases -/

/-- A conversion that reads runs of digits. -/
def lfEx (s : List Char) : Option (ℝ × List Char) :=
  (scanNat s).map fun n => ((n : ℝ), s.dropWhile Char.isDigit)

theorem numEx (c : Char) (hc : c.isDigit = true) : IsNum lfEx [c] ((c.toNat - '0'.toNat : ℕ) : ℝ) := by
  have hne : c ≠ ':' := by rintro rfl; revert hc; decide
  refine ⟨by simpa using Ne.symm hne, ?_⟩
  have h0 : (':' : Char).isDigit = false := by decide
  have h1 : (']' : Char).isDigit = false := by decide
  rintro r (⟨s, rfl⟩ | ⟨s, rfl⟩)
  · simp [lfEx, scanNat, hc, h0, digitsVal]
  · simp [lfEx, scanNat, hc, h1, digitsVal]

theorem priorEx : IsPrior lfEx "[1:2:5:7]".toList [1, 2, 5, 7] := by
  refine ⟨['1'], [['2'], ['5'], ['7']], 1, [2, 5, 7], by decide, ?_, ?_, rfl⟩
  · simpa using numEx '1' (by decide)
  · exact .cons (by simpa using numEx '2' (by decide)) (.cons (by simpa using numEx '5' (by decide))
      (.cons (by simpa using numEx '7' (by decide)) .nil))

example : lagPriorOf lfEx 2 "[1:2:5:7]".toList = .ok [1, 2, 5, 7] := (C49_lag lfEx _ _ priorEx 2 (by norm_num)).1 (by simp)
example : lagPriorOf lfEx 3 "[1:2:5:7]".toList = .exit := (C49_lag lfEx _ _ priorEx 3 (by norm_num)).2 (by simp)
example : widthPriorOf lfEx 2 (0, 0) "[1:2:5:7]".toList = .ok [Real.log 1, Real.log 2, Real.log 5, Real.log 7] :=
  (C49_width lfEx _ _ priorEx 2 (by norm_num) (0, 0)).1 (by simp) (by simp)
example : ratioPriorOf lfEx 3 "[1:2:5:7]".toList = .ub := C49_ratio_pairs lfEx _ _ priorEx 3 2 (by norm_num) (by simp)

example : ∃ r, ratioPriorOf lfEx 3 "[1:2]".toList = .ok r ∧ r.length = 4 :=
  let ⟨r, h1, h2, _⟩ := C49_ratio_partial lfEx "[1:2]".toList 1 2 ⟨['1'], [['2']], 1, [2], by decide,
    by simpa using numEx '1' (by decide), .cons (by simpa using numEx '2' (by decide)) .nil, rfl⟩ 3 (by norm_num)
  ⟨r, h1, h2⟩

/-- Two data sets `[c₀:w₀:c₁:w₁] = [1:2:5:7]`: the second one gets centre 2 and width 5. -/
example : ∃ g, gapPriorOf lfEx 2 "[1:2:5:7]".toList = .ok g ∧ g[1]? = some (2, 5 / 2) := by
  obtain ⟨g, h1, -, h3⟩ := C49_gap_shift lfEx _ _ priorEx 2 (by norm_num) (by simp)
  exact ⟨g, h1, by simpa using h3 1 (by norm_num)⟩

private def parseEx (s : List Char) : Option ParLine := (scanInt s).map fun n => ⟨n, 0, 1, 0, 0⟩

private theorem lineEx : IsParLine parseEx "1 x".toList ⟨1, 0, 1, 0, 0⟩ := by
  have : scanInt (trimC ("1 x".toList ++ ['\n'])) = some 1 := by decide +kernel
  refine ⟨by decide, by decide, ⟨[], '1', [' ', 'x'], by decide, by simp, by decide, by decide⟩, ?_⟩
  unfold parseEx
  rw [this]
  rfl

example : ∃ t', loadParNames parseEx 2 (textOf ["1 x".toList] []) ⟨[(5, 6), (7, 8)], [1, 1], [0, 0]⟩ = .ok t' ∧
    t'.range[0]? = some (5, 6) ∧ t'.range[1]? = some (0, 1) := by
  obtain ⟨t', h1, -, -, -, h2, h3⟩ := C56_load_partial parseEx _ _ (.cons lineEx .nil) 2 (by simp)
    ⟨[(5, 6), (7, 8)], [1, 1], [0, 0]⟩ ⟨rfl, rfl, rfl⟩
  refine ⟨t', h1, ?_, ?_⟩
  · exact (h2 0 (by norm_num) (by simp)).1
  · exact (h3 [] _ [] rfl (by simp)).1

example (t : ParTab) : loadParNames parseEx 2 (textOf ["1 x".toList, "# c".toList] []) t = .hang :=
  C56_comment parseEx _ _ (.cons lineEx .nil) 2 (by simp) t " c".toList (by decide) (by decide) []

end Mica
