import Verif.Model.PyPriors
import Verif.Proof.PyText
import Verif.Props.Priors

/-!
# C113: priors given to the Python interface
-/

namespace Mica

/-- `%f` in front of a separator is read back. -/
theorem isNum_fmt6 (x : ℝ) : IsNum scanLf (fmt6 x) (rd6 x) := by
  obtain ⟨ip, fr, e, h1, h2, h3, h4, h5⟩ := fmt6_parts x
  constructor
  · rw [e]
    simp only [List.mem_append, List.mem_cons, not_or]
    refine ⟨?_, fun h => ?_, by decide, fun h => ?_⟩
    · split <;> simp
    · exact absurd (h2 _ h) (by decide)
    · exact absurd (h3 _ h) (by decide)
  · intro r hr
    have := scanLf_dec_stop (decide (x < 0)) h1 h2 h3 (a := []) (by simp) (r := r)
      (by intro c s h; rcases hr with ⟨s', rfl⟩ | ⟨s', rfl⟩ <;> rw [← (List.cons.inj h).1] <;> decide)
      (by rcases hr with ⟨s', rfl⟩ | ⟨s', rfl⟩ <;> simp [takeExpo])
    simp only [decide_eq_true_eq] at this
    rw [e, h5]
    simp only [List.append_assoc, List.cons_append, List.nil_append] at this ⊢
    exact this

/-- The values in the text. -/
noncomputable def pairVals (ps : List (ℝ × ℝ)) : List ℝ := ps.flatMap fun p => [rd6 p.1, rd6 p.2]

theorem pairVals_length (ps : List (ℝ × ℝ)) : (pairVals ps).length = 2 * ps.length := by
  induction ps with
  | nil => rfl
  | cons p ps ih => simp only [pairVals, List.flatMap_cons, List.length_append, List.length_cons, List.length_nil] at ih ⊢; omega

theorem pairVals_take (ps : List (ℝ × ℝ)) (n : ℕ) : (pairVals ps).take (2 * n) = pairVals (ps.take n) := by
  induction ps generalizing n with
  | nil => simp [pairVals]
  | cons p ps ih =>
    cases n with
    | zero => simp [pairVals]
    | succ n =>
      have := ih n
      simp only [pairVals, List.flatMap_cons, List.take_succ_cons, List.cons_append, List.nil_append] at this ⊢
      rw [show 2 * (n + 1) = 2 * n + 1 + 1 by ring, List.take_succ_cons, List.take_succ_cons, this]

/-- **C113.** The text of a list of at least `n ≥ 1` pairs has the form the C code expects, with the numbers rounded to six
places. -/
theorem pyPairs_prior (n : ℕ) (hn : 1 ≤ n) (pairs : List (ℝ × ℝ)) (hp : n ≤ pairs.length) :
    ∃ s, pyPairs n pairs = some s ∧ IsPrior scanLf s (pairVals (pairs.take n)) := by
  cases pairs with
  | nil => simp at hp; omega
  | cons p ps =>
    simp only [List.length_cons] at hp
    refine ⟨_, by rw [pyPairs, if_neg (by omega)], ?_⟩
    obtain ⟨k, rfl⟩ : ∃ k, n = k + 1 := ⟨n - 1, by omega⟩
    simp only [Nat.add_sub_cancel, List.take_succ_cons]
    refine ⟨fmt6 p.1, fmt6 p.2 :: ((ps.take k).flatMap fun q => [fmt6 q.1, fmt6 q.2]), rd6 p.1,
      rd6 p.2 :: pairVals (ps.take k), ?_, isNum_fmt6 _, .cons (isNum_fmt6 _) ?_, rfl⟩
    · simp only [pairText, List.append_assoc, List.cons_append, List.map_cons, List.flatten_cons]
      congr 3
      congr 1
      congr 1
      generalize ps.take k = l
      induction l with
      | nil => rfl
      | cons q l ih =>
        simp only [List.map_cons, List.flatten_cons, List.flatMap_cons, List.cons_append, List.nil_append, List.append_assoc, ih]
    · generalize ps.take k = l
      induction l with
      | nil => exact .nil
      | cons q l ih => exact .cons (isNum_fmt6 _) (.cons (isNum_fmt6 _) ih)

theorem fmt6_len_ge (x : ℝ) : 8 ≤ (fmt6 x).length := by
  obtain ⟨ip, fr, e, h1, -, -, h4, -⟩ := fmt6_parts x
  have : 1 ≤ ip.length := List.length_pos_iff.2 h1
  rw [e]
  simp only [List.length_append, List.length_cons]
  omega

/-- Length of the text. -/
theorem pyPairs_length (n : ℕ) (hn : 1 ≤ n) (pairs : List (ℝ × ℝ)) (hp : n ≤ pairs.length) (s : List Char)
    (hs : pyPairs n pairs = some s) :
    s.length = 1 + ((pairs.take n).map fun p => (fmt6 p.1).length + (fmt6 p.2).length + 2).sum := by
  cases pairs with
  | nil => simp [pyPairs] at hs
  | cons p ps =>
    simp only [List.length_cons] at hp
    rw [pyPairs, if_neg (by omega), Option.some.injEq] at hs
    obtain ⟨k, rfl⟩ : ∃ k, n = k + 1 := ⟨n - 1, by omega⟩
    subst hs
    simp only [Nat.add_sub_cancel, List.take_succ_cons, List.map_cons, List.sum_cons, List.length_cons, List.length_append,
      pairText, List.length_nil]
    suffices h : (((ps.take k).map fun q => ':' :: (fmt6 q.1 ++ ':' :: fmt6 q.2)).flatten).length =
        ((ps.take k).map fun p => (fmt6 p.1).length + (fmt6 p.2).length + 2).sum by omega
    generalize ps.take k = l
    induction l with
    | nil => rfl
    | cons q l ih =>
      simp only [List.map_cons, List.flatten_cons, List.length_append, List.length_cons, List.sum_cons, ih]
      omega

/-- **C113** (`lag_prior`; also `pmap`, whose largest number of components is 2).  With two or more components the prior is
used (type 4), and for every number of components that is run the limits of the lags are those given, rounded to six
places. -/
theorem C113_lag (upp : ℕ) (hu : 1 < upp) (pairs : List (ℝ × ℝ)) (hp : upp ≤ pairs.length) :
    ∃ s, pyLag upp pairs = some (4, s) ∧ ∀ n, 1 ≤ n → n ≤ upp → ∃ v, lagPriorOf scanLf n s = .ok v ∧ v.length = 2 * n ∧
      ∀ i < n, |v.getD (2 * i) 0 - (pairs.getD i (0, 0)).1| ≤ 1 / 2 / 10 ^ 6 ∧
        |v.getD (2 * i + 1) 0 - (pairs.getD i (0, 0)).2| ≤ 1 / 2 / 10 ^ 6 := by
  obtain ⟨s, h1, h2⟩ := pyPairs_prior upp (by omega) pairs hp
  refine ⟨s, by simp [pyLag, hu, h1], fun n hn hnu => ?_⟩
  have hl : (pairVals (pairs.take upp)).length = 2 * upp := by
    rw [pairVals_length, List.length_take]; omega
  have h := (C49_lag scanLf s _ h2 n hn).1 (by omega)
  rw [pairVals_take, List.take_take, show min n upp = n by omega] at h
  refine ⟨_, h, ?_, fun i hi => ?_⟩
  · rw [pairVals_length, List.length_take]; omega
  · have hget : ∀ (l : List (ℝ × ℝ)) i, i < l.length → (pairVals l).getD (2 * i) 0 = rd6 (l.getD i (0, 0)).1 ∧
        (pairVals l).getD (2 * i + 1) 0 = rd6 (l.getD i (0, 0)).2 := by
      intro l
      induction l with
      | nil => intro i hi; simp at hi
      | cons q l ih =>
        intro i hi
        cases i with
        | zero => exact ⟨rfl, rfl⟩
        | succ i =>
          have := ih i (by simpa using hi)
          rw [show 2 * (i + 1) = 2 * i + 1 + 1 by ring]
          exact this
    have hlen : i < (pairs.take n).length := by rw [List.length_take]; omega
    obtain ⟨e1, e2⟩ := hget (pairs.take n) i hlen
    have e3 : (pairs.take n).getD i (0, 0) = pairs.getD i (0, 0) := by
      rw [List.getD_eq_getElem _ _ hlen, List.getD_eq_getElem _ _ (by omega), List.getElem_take]
    rw [e1, e2, e3]
    exact ⟨rd6_near _, rd6_near _⟩

theorem rd6_pos_iff (x : ℝ) : 0 < rd6 x ↔ 1 / 2 / 10 ^ 6 ≤ x := by
  unfold rd6
  split
  · rename_i h
    constructor
    · intro h'
      have : (0 : ℝ) ≤ (micro x : ℝ) / 10 ^ 6 := by positivity
      linarith
    · intro h'
      have : (0 : ℝ) < 1 / 2 / 10 ^ 6 := by norm_num
      linarith
  · rename_i h
    push Not at h
    have : 0 < (micro x : ℝ) / 10 ^ 6 ↔ 0 < micro x := by
      constructor
      · intro h'
        by_contra h0
        have : micro x = 0 := by omega
        rw [this] at h'; simp at h'
      · intro h'
        have : (0 : ℝ) < micro x := by exact_mod_cast h'
        positivity
    rw [this]
    unfold micro
    rw [abs_of_nonneg h, Nat.floor_pos]
    constructor
    · intro h'
      rw [div_le_iff₀ (by norm_num)]
      linarith
    · intro h'
      rw [div_le_iff₀ (by norm_num)] at h'
      linarith

/-- **C113** (`width_prior`).  The logarithms of the widths given, rounded to six places, if all are at least 5e-7; otherwise
the program stops, also for positive widths below that. -/
theorem C113_width (upp : ℕ) (hu : 1 ≤ upp) (pairs : List (ℝ × ℝ)) (hp : upp ≤ pairs.length) (dflt : ℝ × ℝ) :
    ∃ s, pyPairs upp pairs = some s ∧ ∀ n, 1 ≤ n → n ≤ upp →
      ((∀ p ∈ pairs.take n, 1 / 2 / 10 ^ 6 ≤ p.1 ∧ 1 / 2 / 10 ^ 6 ≤ p.2) →
        widthPriorOf scanLf n dflt s = .ok ((pairs.take n).flatMap fun p => [Real.log (rd6 p.1), Real.log (rd6 p.2)])) ∧
      ((∃ p ∈ pairs.take n, p.1 < 1 / 2 / 10 ^ 6 ∨ p.2 < 1 / 2 / 10 ^ 6) → widthPriorOf scanLf n dflt s = .exit) := by
  obtain ⟨s, h1, h2⟩ := pyPairs_prior upp hu pairs hp
  refine ⟨s, h1, fun n hn hnu => ?_⟩
  have hl : (pairVals (pairs.take upp)).length = 2 * upp := by
    rw [pairVals_length, List.length_take]; omega
  have h := C49_width scanLf s _ h2 n hn dflt
  rw [pairVals_take, List.take_take, show min n upp = n by omega] at h
  have hmem : ∀ v, v ∈ pairVals (pairs.take n) ↔ ∃ p ∈ pairs.take n, v = rd6 p.1 ∨ v = rd6 p.2 := by
    intro v
    simp only [pairVals, List.mem_flatMap, List.mem_cons, List.not_mem_nil, or_false]
  constructor
  · intro hall
    rw [h.1 (by omega) fun v hv => ?_]
    · congr 1
      generalize pairs.take n = l
      induction l with
      | nil => rfl
      | cons q l ih =>
        simp only [pairVals, List.flatMap_cons, List.map_append, List.map_cons, List.map_nil] at ih ⊢
        rw [ih]
    · obtain ⟨p, hp, rfl | rfl⟩ := (hmem v).1 hv
      · exact (rd6_pos_iff _).2 (hall p hp).1
      · exact (rd6_pos_iff _).2 (hall p hp).2
  · rintro ⟨p, hp, hs⟩
    refine h.2 (.inr ?_)
    rcases hs with hs | hs
    · exact ⟨_, (hmem _).2 ⟨p, hp, .inl rfl⟩, by by_contra h0; exact absurd ((rd6_pos_iff _).1 (not_le.1 h0)) (not_le.2 hs)⟩
    · exact ⟨_, (hmem _).2 ⟨p, hp, .inr rfl⟩, by by_contra h0; exact absurd ((rd6_pos_iff _).1 (not_le.1 h0)) (not_le.2 hs)⟩

/-- **C113** (`ratio_prior` of `pmap`).  One pair: the limits of the ratio for two components.  Two pairs or more: undefined
behaviour. -/
theorem C113_ratio (pairs : List (ℝ × ℝ)) :
    (∀ p, pairs = [p] → ∃ s, pyPairs pairs.length pairs = some s ∧
      ∃ r, ratioPriorOf scanLf 2 s = .ok r ∧ r = [Real.log (rd6 p.1), Real.log (rd6 p.2)]) ∧
    (2 ≤ pairs.length → ∃ s, pyPairs pairs.length pairs = some s ∧ ratioPriorOf scanLf 2 s = .ub) := by
  constructor
  · rintro p rfl
    obtain ⟨s, h1, h2⟩ := pyPairs_prior 1 (by omega) [p] (by simp)
    obtain ⟨r, hr, hl, hv⟩ := C49_ratio_partial scanLf s (rd6 p.1) (rd6 p.2) h2 2 (by omega)
    refine ⟨s, h1, r, hr, ?_⟩
    have := hv 0 (by omega)
    match r, hl with
    | [a, b], _ =>
      simp only [Nat.mul_zero, List.getElem?_cons_zero, Option.some.injEq, Nat.zero_add, List.getElem?_cons_succ] at this
      rw [this.1, this.2]
  · intro h
    obtain ⟨s, h1, h2⟩ := pyPairs_prior pairs.length (by omega) pairs (by omega)
    refine ⟨s, h1, C49_ratio_pairs scanLf s _ h2 2 pairs.length h ?_⟩
    rw [pairVals_length, List.take_length]

/-- **C113** (`gap_prior`, partial: one data set).  Centre and half of the width, rounded to six places. -/
theorem C113_gap_partial (p : ℝ × ℝ) : ∃ s, pyGap [p] = some s ∧ gapPriorOf scanLf 1 s = .ok [(rd6 p.1, rd6 p.2 / 2)] := by
  refine ⟨_, rfl, C49_gap_partial scanLf _ _ _ [] ⟨fmt6 p.1, [fmt6 p.2], rd6 p.1, [rd6 p.2], ?_, isNum_fmt6 _,
    .cons (isNum_fmt6 _) .nil, rfl⟩⟩
  simp [pairText]

/-- **C113, the rest is false.** With two or more data sets every `gap_prior`, of whatever length, ends the program: the pairs
are written without a separator. -/
theorem C113_gap_fails (nset : ℕ) (hn : 2 ≤ nset) (pairs : List (ℝ × ℝ)) (hp : pairs ≠ []) :
    ∃ s, pyGap pairs = some s ∧ gapPriorOf scanLf nset s = .exit := by
  cases pairs with
  | nil => exact absurd rfl hp
  | cons p ps =>
    refine ⟨_, rfl, ?_⟩
    unfold gapPriorOf
    obtain ⟨k, hk⟩ : ∃ k, nset - 1 = k + 1 := ⟨nset - 2, by omega⟩
    rw [hk, List.drop_succ_cons, List.drop_zero]
    unfold gapLoop
    -- what follows the first `':'` is not a pair
    have hno : ∀ k, gapLoop scanLf k (fmt6 p.2 ++ ((ps.map pairText).flatten ++ [']'])) = .exit := by
      have hpair : lfPair scanLf (fmt6 p.2 ++ ((ps.map pairText).flatten ++ [']'])) = none := by
        cases ps with
        | nil =>
          unfold lfPair
          rw [(isNum_fmt6 p.2).2 _ (.inr ⟨[], by simp⟩)]
          simp
        | cons q ps =>
          obtain ⟨ip, fr, e, h1, h2, h3, h4, h5⟩ := fmt6_parts p.2
          obtain ⟨iq, fq, e', h1', h2', h3', h4', h5'⟩ := fmt6_parts q.1
          have hdig : ∀ (l : List Char) (c : Char) (s : List Char), (c = '-' ∨ c = '.') → NoDigit (c :: s) ∧ takeExpo (c :: s) = some (0, c :: s) := by
            rintro - c s (rfl | rfl)
            · exact ⟨by intro c s h; rw [← (List.cons.inj h).1]; decide, by simp [takeExpo]⟩
            · exact ⟨by intro c s h; rw [← (List.cons.inj h).1]; decide, by simp [takeExpo]⟩
          obtain ⟨R, hR⟩ : ∃ R, (List.map pairText (q :: ps)).flatten ++ [']'] = fmt6 q.1 ++ R :=
            ⟨':' :: (fmt6 q.2 ++ ((ps.map pairText).flatten ++ [']'])), by simp [pairText]⟩
          rw [hR, e, e']
          unfold lfPair
          by_cases hneg : q.1 < 0
          · rw [if_pos hneg]
            have := scanLf_dec_stop (decide (p.2 < 0)) h1 h2 h3 (a := []) (by simp) (r := '-' :: (iq ++ '.' :: (fq ++ R))) (hdig [] _ _ (.inl rfl)).1
              (hdig [] _ _ (.inl rfl)).2
            simp only [decide_eq_true_eq, List.append_assoc, List.cons_append, List.nil_append] at this ⊢
            rw [this]
            simp
          · rw [if_neg hneg]
            have := scanLf_dec_stop (decide (p.2 < 0)) h1 h2 (fr := fr ++ iq) (fun c hc => (List.mem_append.1 hc).elim (h3 c) (h2' c))
              (a := []) (by simp) (r := '.' :: (fq ++ R)) (hdig [] _ _ (.inr rfl)).1 (hdig [] _ _ (.inr rfl)).2
            simp only [decide_eq_true_eq, List.append_assoc, List.cons_append, List.nil_append] at this ⊢
            rw [this]
            simp
      intro k
      cases k with
      | zero => unfold gapLoop; rw [hpair]
      | succ k => unfold gapLoop; rw [hpair]
    have htext : pairText p ++ ((ps.map pairText).flatten ++ [']']) =
        fmt6 p.1 ++ ':' :: (fmt6 p.2 ++ ((ps.map pairText).flatten ++ [']'])) := by simp [pairText]
    have hch : strchr (pairText p ++ ((ps.map pairText).flatten ++ [']'])) ':' =
        some (':' :: (fmt6 p.2 ++ ((ps.map pairText).flatten ++ [']']))) := by
      rw [htext]
      exact strchr_skip (isNum_fmt6 p.1).1
    rw [hch]
    simp only [List.drop_succ_cons, List.drop_zero, hno]
    split <;> rfl

/-- **C113** (arrays).  The text fits into the array of 256 characters if the numbers are below `10 ^ m` and
`2 (m + 10) n < 255`; so for lags below 10000 up to 9 components.  With 15 components or more it never fits, and memory
behind the array is overwritten. -/
theorem C113_fits (n : ℕ) (hn : 1 ≤ n) (pairs : List (ℝ × ℝ)) (hp : n ≤ pairs.length) (s : List Char)
    (hs : pyPairs n pairs = some s) :
    (∀ m, (∀ p ∈ pairs.take n, |p.1| < 10 ^ m ∧ |p.2| < 10 ^ m) → n * (2 * (m + 10)) < 255 → copyStr 256 s = .ok s) ∧
    (15 ≤ n → copyStr 256 s = .ub) := by
  have hl := pyPairs_length n hn pairs hp s hs
  have hlen : (pairs.take n).length = n := by rw [List.length_take]; omega
  constructor
  · intro m hm hb
    have : ((pairs.take n).map fun p => (fmt6 p.1).length + (fmt6 p.2).length + 2).sum ≤ (pairs.take n).length * (2 * (m + 10)) := by
      have := List.sum_le_card_nsmul ((pairs.take n).map fun p => (fmt6 p.1).length + (fmt6 p.2).length + 2) (2 * (m + 10)) (by
        intro x hx
        obtain ⟨p, hp, rfl⟩ := List.mem_map.1 hx
        have h1 := fmt6_length p.1 m (hm p hp).1
        have h2 := fmt6_length p.2 m (hm p hp).2
        omega)
      simpa using this
    rw [hlen] at this
    unfold copyStr
    rw [if_pos (by omega)]
  · intro h15
    have : (pairs.take n).length * 18 ≤ ((pairs.take n).map fun p => (fmt6 p.1).length + (fmt6 p.2).length + 2).sum := by
      have := List.card_nsmul_le_sum ((pairs.take n).map fun p => (fmt6 p.1).length + (fmt6 p.2).length + 2) 18 (by
        intro x hx
        obtain ⟨p, hp, rfl⟩ := List.mem_map.1 hx
        have h1 := fmt6_len_ge p.1
        have h2 := fmt6_len_ge p.2
        omega)
      simpa using this
    rw [hlen] at this
    unfold copyStr
    rw [if_neg (by omega)]

/-- **C113, negation.** With one component only, `lag_prior` is not used: the type is 0 and the text empty, so the limits are
those of `lag_limit`. -/
theorem C113_lag_one (upp : ℕ) (hu : upp ≤ 1) (pairs : List (ℝ × ℝ)) : pyLag upp pairs = some (0, []) := by
  unfold pyLag
  rw [if_neg (by omega)]

/-! ### Cases -/

/-- Two components with lags in 0–10 and 10–50: the hypotheses of `C113_lag`, `C113_width`, `C113_fits`. -/
example : (1 < 2 ∧ 2 ≤ [((0 : ℝ), (10 : ℝ)), (10, 50)].length) ∧
    (∀ p ∈ [((0 : ℝ), (10 : ℝ)), (10, 50)].take 2, |p.1| < 10 ^ 2 ∧ |p.2| < 10 ^ 2) ∧ 2 * (2 * (2 + 10)) < 255 := by
  refine ⟨⟨by decide, by decide⟩, ?_, by decide⟩
  simp only [List.take, List.mem_cons, List.not_mem_nil, or_false]
  rintro p (rfl | rfl) <;> norm_num

example : ∀ p ∈ [((1 : ℝ), (10 : ℝ)), (10, 50)].take 2, 1 / 2 / 10 ^ 6 ≤ p.1 ∧ 1 / 2 / 10 ^ 6 ≤ p.2 := by
  simp only [List.take, List.mem_cons, List.not_mem_nil, or_false]
  rintro p (rfl | rfl) <;> norm_num

/-- A positive width that stops the program. -/
example (dflt : ℝ × ℝ) : ∃ s, pyPairs 1 [(1 / 10 ^ 7, 1)] = some s ∧ widthPriorOf scanLf 1 dflt s = .exit := by
  obtain ⟨s, h, h'⟩ := C113_width 1 (by norm_num) [(1 / 10 ^ 7, 1)] (by simp) dflt
  exact ⟨s, h, (h' 1 (by norm_num) (by norm_num)).2 ⟨(1 / 10 ^ 7, 1), by simp, .inl (by norm_num)⟩⟩

/-- The gap prior of two data sets with one pair per set. -/
example : ∃ s, pyGap [(100, 20), (130, 30)] = some s ∧ gapPriorOf scanLf 2 s = .exit :=
  C113_gap_fails 2 (by norm_num) _ (by simp)

end Mica
