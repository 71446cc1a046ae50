import Verif.Proof.Progress
import Verif.Props.SamplerSafe
import Verif.Props.Resume

/-!
# C151: the progress bar
-/

namespace Mica

/-- What a user reads: `k` marks in a bar of 50 places, the percentage, the count if it is asked for, and the end of the
line when all is done. -/
def barText (k p t : ℕ) (count : Bool) : List Char :=
  '[' :: (List.replicate k '#' ++ List.replicate (50 - k) ' ' ++ ']' :: ' ' :: (Nat.toDigits 10 (100 * p / t) ++
    '%' :: ' ' :: ((if count then Nat.toDigits 10 p ++ '/' :: Nat.toDigits 10 t else []) ++
      if p < t then ['\x08', '\r'] else ['\n'])))

/-- A bar of 50 places. -/
def stdBar (count : Bool) (p t : ℕ) : ProgressBar where
  symbol := '#'
  startSymbol := '['
  endSymbol := ']'
  length := 50
  progress := p
  total := t
  format := "{bar} {percent} {count}".toList
  completedText := none
  showPercent := true
  showCount := some count

theorem scaled_std (r : ℝ → ℝ) (hr : Accurate r) (count : Bool) (p t : ℕ) (ht : 0 < t) (hp : p * 100 < 2 ^ 31) :
    ∃ z : ℕ, ⌊r (r (r p * r 50) / r t)⌋ = (z : ℤ) ∧ scaledProgress r (stdBar count p t) = .ok (z : ℤ) := by
  have htR : (0 : ℝ) < t := by exact_mod_cast ht
  have hpR : (0 : ℝ) ≤ p := Nat.cast_nonneg p
  obtain ⟨h0, h1, h2⟩ := scaled_near hr hpR htR
  have hq0 : 0 ≤ r (r (r p * r 50) / r t) := le_trans (by positivity : (0:ℝ) ≤ (1 - 1 / 10 ^ 6) * (50 * p / t)) h1
  have hqb : r (r (r p * r 50) / r t) < ((2 ^ 31 : ℤ) : ℝ) := by
    have a : (50 * p / t : ℝ) ≤ 50 * p := div_le_self (by positivity) (by exact_mod_cast ht)
    have b : (p : ℝ) * 100 < 2 ^ 31 := by exact_mod_cast hp
    have c := mul_le_mul_of_nonneg_left a (by norm_num : (0:ℝ) ≤ 1 + 1 / 10 ^ 6)
    push_cast
    linarith
  obtain ⟨z, hz⟩ := Int.eq_ofNat_of_zero_le (Int.floor_nonneg.2 hq0)
  refine ⟨z, hz, ?_⟩
  have hlt := Int.floor_lt.2 hqb
  rw [hz] at hlt
  simp only [scaledProgress, stdBar, castInt32, Int.cast_natCast]
  rw [if_neg h0.ne', show ((50 : ℤ) : ℝ) = 50 by norm_num, if_pos hq0, hz, if_pos ⟨by omega, hlt⟩]

theorem percent_std (count : Bool) (p t : ℕ) (ht : 0 < t) (hp : p * 100 < 2 ^ 31) :
    percentDone (stdBar count p t) = .ok ((100 * p / t : ℕ) : ℤ) := by
  have h1 : ¬ ((p : ℤ) * 100 < -2 ^ 31 ∨ 2 ^ 31 ≤ (p : ℤ) * 100) := by omega
  have h2 : (t : ℤ) ≠ 0 := by omega
  unfold percentDone
  rw [if_neg (show ¬ ((stdBar count p t).progress * 100 < -2 ^ 31 ∨ 2 ^ 31 ≤ (stdBar count p t).progress * 100) from h1),
    if_neg (show ¬ (stdBar count p t).total = 0 from h2)]
  simp only [stdBar]
  rw [Int.tdiv_eq_ediv_of_nonneg (by positivity)]
  push_cast
  rw [mul_comm]

theorem pbPrint_eq (r : ℝ → ℝ) (hr : Accurate r) (count : Bool) (p t : ℕ) (ht : 0 < t) (ht' : t < 2 ^ 31)
    (hp : p * 100 < 2 ^ 31) :
    ∃ z : ℕ, ⌊r (r (r p * r 50) / r t)⌋ = (z : ℤ) ∧
      pbPrint r (stdBar count p t) = .ok (barText (min z 50) p t count) := by
  obtain ⟨z, hz, hs⟩ := scaled_std r hr count p t ht hp
  refine ⟨z, hz, ?_⟩
  have hpc := percent_std count p t ht hp
  have hpl : 100 * p / t < 10 ^ 10 := lt_of_le_of_lt (Nat.div_le_self _ _) (by omega)
  have d1 : (Nat.toDigits 10 (100 * p / t)).length ≤ 10 := digits_len (by norm_num) hpl
  have d2 : (Nat.toDigits 10 p).length ≤ 10 := digits_len (by norm_num) (by omega)
  have d3 : (Nat.toDigits 10 t).length ≤ 10 := digits_len (by norm_num) (by omega)
  have hlt : (((100 * p / t : ℕ) : ℤ) < 100) ↔ p < t := by
    rw [show (100 : ℤ) = ((100 : ℕ) : ℤ) by rfl, Nat.cast_lt, Nat.div_lt_iff_lt_mul ht]
    omega
  have hb : barLoop '#' (z : ℤ) 0 50 ['['] =
      .ok (['['] ++ (List.replicate (min z 50) '#' ++ List.replicate (50 - min z 50) ' ')) := by
    rw [barLoop_eq _ _ _ _ _ (by simp), bar_chars]
  have hmin : min z 50 + (50 - min z 50) = 50 := by omega
  have c0 : ∀ (cap : ℕ) (s u : List Char), s.length + u.length < cap → catTo cap s u = .ok (s ++ u) :=
    fun cap s u h => if_pos h
  unfold pbPrint
  rw [hs, hpc]
  unfold barText
  generalize 100 * p / t = q at *
  simp only [stdBar]
  rw [c0 256 [] ['['] (by simp), Res.ok_bind, Res.ok_bind, show (50 : ℤ).toNat = 50 from rfl, List.nil_append, hb,
    Res.ok_bind, c0 256 _ [']'] (by simp), Res.ok_bind, Res.ok_bind, if_pos trivial, fmtInt_nat,
    c0 32 [] _ (by simp; omega), Res.ok_bind, List.nil_append]
  cases count
  · simp only [Bool.false_eq_true, if_false, Res.pure_eq]
    rw [Res.ok_bind, format_eq _ _ _ _ (by simp; omega), Res.ok_bind]
    simp only [hlt]
    by_cases h : p < t <;> simp [h]
  · simp only [if_true]
    rw [fmtInt_nat, fmtInt_nat, c0 32 [] _ (by simp; omega), Res.ok_bind,
      format_eq _ _ _ _ (by simp; omega), Res.ok_bind]
    simp only [hlt]
    by_cases h : p < t <;> simp [h]

/-- **C151.** With a positive total and fewer than 21474837 steps done the bar is printed without undefined behaviour,
whatever `showCount` was before; it shows the whole percent done, and ends the line exactly if all is done.  The number of
marks is the number of fiftieths done, apart from errors of the single-precision quotient, which can matter only within
one hundredth of a mark. -/
theorem C151_text (r : ℝ → ℝ) (hr : Accurate r) (mem : Option Bool) (count : Bool) (p t : ℕ) (ht : 0 < t)
    (ht' : t < 2 ^ 31) (hp : p * 100 < 2 ^ 31) :
    ∃ k ≤ 50, pbPrint r { pbInit mem '#' 50 t with
        showPercent := true, showCount := some count, progress := p } = .ok (barText k p t count) ∧
      (p ≤ t → (50 * p : ℝ) / t - 1 - 1 / 100 < k ∧ (k : ℝ) ≤ 50 * p / t + 1 / 100) ∧ (t * 2 ≤ p → k = 50) := by
  obtain ⟨z, hz, h⟩ := pbPrint_eq r hr count p t ht ht' hp
  have htR : (0 : ℝ) < t := by exact_mod_cast ht
  obtain ⟨-, h1, h2⟩ := scaled_near hr (Nat.cast_nonneg p) htR
  have f1 := Int.floor_le (r (r (r p * r 50) / r t))
  have f2 := Int.lt_floor_add_one (r (r (r p * r 50) / r t))
  rw [hz] at f1 f2
  push_cast at f1 f2
  refine ⟨min z 50, min_le_right _ _, h, fun hpt => ?_, fun hpt => ?_⟩
  · have hq : (50 * p : ℝ) / t ≤ 50 := by
      rw [div_le_iff₀ htR]
      have : (p : ℝ) ≤ t := by exact_mod_cast hpt
      linarith
    have hq0 : (0 : ℝ) ≤ 50 * p / t := by positivity
    push_cast
    refine ⟨lt_min ?_ (by linarith), le_trans (min_le_left _ _) ?_⟩ <;> linarith
  · have hq : (100 : ℝ) ≤ 50 * p / t := by
      rw [le_div_iff₀ htR]
      have : (t : ℝ) * 2 ≤ p := by exact_mod_cast hpt
      linarith
    have : (50 : ℝ) < z + 1 := by linarith
    have : 50 < z + 1 := by exact_mod_cast this
    omega

/-- **C151.** If the single-precision numbers are exact for the total and fifty times the total (totals up to 335544), the
bar is full when all is done. -/
theorem C151_full (r : ℝ → ℝ) (hr : Accurate r) (mem : Option Bool) (count : Bool) (t : ℕ) (ht : 0 < t)
    (ht' : t * 100 < 2 ^ 31) (h50 : r 50 = 50) (h1 : r t = t) (h2 : r (t * 50) = t * 50) :
    pbPrint r { pbInit mem '#' 50 t with showPercent := true, showCount := some count, progress := t } =
      .ok (barText 50 t t count) := by
  obtain ⟨z, hz, h⟩ := pbPrint_eq r hr count t t ht (by omega) ht'
  have htR : (t : ℝ) ≠ 0 := by exact_mod_cast ht.ne'
  rw [h1, h50, h2, mul_comm, mul_div_assoc, div_self htR, mul_one, h50] at hz
  have h3 : z = 50 := by
    have : ⌊(50 : ℝ)⌋ = 50 := by norm_num
    omega
  subst h3
  exact h

/-- **C151** (partial: fewer than 21474837 saves are asked for).  At every moment of a run of the sampler the bar can be
printed: the percentage and the count are those of the saved samples, and the line ends exactly when the run does. -/
theorem C151_run_partial {d : ℕ} (r : ℝ → ℝ) (hr : Accurate r) (mem : Option Bool) (o : SOpts) (hN : 0 < o.maxNumSaves)
    (hN' : o.maxNumSaves * 100 < 2 ^ 31) (L : (Fin d → ℝ) → ℝ) (s : Sampler d) (hs : Reachable o L s) :
    ∃ k ≤ 50, pbPrint r (samplerBar mem o.maxNumSaves s.saved.length) =
        .ok (barText k s.saved.length o.maxNumSaves true) ∧
      (50 * s.saved.length : ℝ) / o.maxNumSaves - 1 - 1 / 100 < k ∧
      (k : ℝ) ≤ 50 * s.saved.length / o.maxNumSaves + 1 / 100 ∧
      (finished o s ↔ (barText k s.saved.length o.maxNumSaves true).getLast? = some '\n') := by
  obtain ⟨h1, h2⟩ := C16_stops o hN L s hs
  obtain ⟨k, hk, h, hb, -⟩ := C151_text r hr mem true s.saved.length o.maxNumSaves hN (by omega) (by omega)
  refine ⟨k, hk, ?_, (hb h1).1, (hb h1).2, ?_⟩
  · rw [samplerBar, asInt32_small (by omega), asInt32_small (by omega)]
    exact h
  · rw [h2]
    by_cases hlt : s.saved.length < o.maxNumSaves
    · simp only [barText, if_pos hlt]
      constructor
      · intro h; omega
      · intro h
        simp [List.getLast?_cons, List.getLast?_append] at h
    · simp only [barText, if_neg hlt]
      constructor
      · intro _
        simp [List.getLast?_cons, List.getLast?_append]
      · intro _; omega

theorem samplerBar_text (r : ℝ → ℝ) (hr : Accurate r) (mem : Option Bool) (m p : ℕ) (hm : 0 < m) (hm' : m * 100 < 2 ^ 31)
    (hp : p ≤ m) : ∃ k ≤ 50, pbPrint r (samplerBar mem m p) = .ok (barText k p m true) := by
  obtain ⟨k, hk, h, -, -⟩ := C151_text r hr mem true p m hm (by omega) (by omega)
  refine ⟨k, hk, ?_⟩
  rw [samplerBar, asInt32_small (by omega), asInt32_small (by omega)]
  exact h

/-- **C151 (sessions).**  In every session, also a resumed one, the bar printed after each save shows all samples saved so
far, those of earlier sessions too, and only the one after the last save asked for ends the line. -/
theorem C151_session (r : ℝ → ℝ) (hr : Accurate r) (mem : Option Bool) (m n k : ℕ) (hm : 0 < m) (hm' : m * 100 < 2 ^ 31)
    (hk : n + k ≤ m) : (sessionBars mem m n k).length = k + 1 ∧ ∀ i < k, ∃ b a, (sessionBars mem m n k)[i + 1]? = some b ∧
      a ≤ 50 ∧ pbPrint r b = .ok (barText a (n + (i + 1)) m true) ∧
      ((barText a (n + (i + 1)) m true).getLast? = some '\n' ↔ n + (i + 1) = m) := by
  refine ⟨by simp [sessionBars], fun i hi => ?_⟩
  obtain ⟨a, ha, h⟩ := samplerBar_text r hr mem m (n + (i + 1)) hm hm' (by omega)
  refine ⟨_, a, by simp [sessionBars, hi], ha, h, ?_⟩
  by_cases hlt : n + (i + 1) < m
  · simp only [barText, if_pos hlt]
    constructor
    · intro h
      simp [List.getLast?_cons, List.getLast?_append] at h
    · intro h; omega
  · simp only [barText, if_neg hlt]
    constructor
    · intro _; omega
    · intro _
      simp [List.getLast?_cons, List.getLast?_append]

/-- **C151 fails at the start of a resumed session.**  The first bar of every session shows 0 samples, whatever number `n`
the snapshot holds; resuming a run that is complete prints only this one, and the line is not ended. -/
theorem C151_resumed (r : ℝ → ℝ) (hr : Accurate r) (mem : Option Bool) (m n k : ℕ) (hm : 0 < m) (hm' : m * 100 < 2 ^ 31) :
    (∃ b a, (sessionBars mem m n k)[0]? = some b ∧ a ≤ 50 ∧ pbPrint r b = .ok (barText a 0 m true)) ∧
      ∀ b ∈ sessionBars mem m m 0, ∀ s, pbPrint r b = .ok s → s.getLast? ≠ some '\n' := by
  obtain ⟨a, ha, h⟩ := samplerBar_text r hr mem m 0 hm hm' (by omega)
  refine ⟨⟨_, a, rfl, ha, h⟩, fun b hb s hs => ?_⟩
  simp only [sessionBars, List.range_zero, List.map_nil, List.mem_singleton] at hb
  subst hb
  rw [h] at hs
  cases hs
  simp only [barText, if_pos hm]
  simp [List.getLast?_cons, List.getLast?_append]

/-- A run of 2000 saves resumed after 500 and finished. -/
example (r : ℝ → ℝ) (hr : Accurate r) : ∃ b a, (sessionBars none 2000 500 1500)[1500]? = some b ∧ a ≤ 50 ∧
    pbPrint r b = .ok (barText a 2000 2000 true) ∧ (barText a 2000 2000 true).getLast? = some '\n' := by
  obtain ⟨b, a, h1, h2, h3, h4⟩ :=
    (C151_session r hr none 2000 500 1500 (by norm_num) (by norm_num) (by norm_num)).2 1499 (by norm_num)
  exact ⟨b, a, h1, h2, h3, h4.2 rfl⟩

/-- **C151 fails without a limit.**  The main loop takes `max_num_saves = 0` to mean that the run goes on for ever (no
state is a last one), but printing the bar at its start divides by zero, which ends the program. -/
theorem C151_endless {d : ℕ} (r : ℝ → ℝ) (hr : Accurate r) (mem : Option Bool) (o : SOpts) (hN : o.maxNumSaves = 0) :
    (∀ s : Sampler d, ¬ finished o s) ∧ pbPrint r (samplerBar mem o.maxNumSaves 0) = .ub := by
  refine ⟨fun s h => h.1 hN, ?_⟩
  have h0 : r 0 = 0 := by
    have := hr 0
    simpa using this
  rw [hN]
  simp [pbPrint, samplerBar, pbInit, catTo, scaledProgress, asInt32, h0]

/-- **C151 fails for long runs.**  From 21474837 saves on printing the bar is undefined behaviour, whatever the number asked
for. -/
theorem C151_overflow (r : ℝ → ℝ) (mem : Option Bool) (m k : ℕ) (h : 21474837 ≤ k) (h' : k < 2 ^ 31) :
    pbPrint r (samplerBar mem m k) = .ub := by
  have hp : percentDone (samplerBar mem m k) = .ub := by
    rw [percentDone, if_pos]
    right
    simp only [samplerBar, pbInit, asInt32_small h']
    omega
  unfold pbPrint
  rw [hp]
  have hc : ∀ (c : ℕ) (s t : List Char), catTo c s t = .ub ∨ ∃ u, catTo c s t = .ok u := by
    intro c s t
    unfold catTo
    split
    · exact .inr ⟨_, rfl⟩
    · exact .inl rfl
  have hs : scaledProgress r (samplerBar mem m k) = .ub ∨ ∃ z, scaledProgress r (samplerBar mem m k) = .ok z := by
    cases e : scaledProgress r (samplerBar mem m k) with
    | ok z => exact .inr ⟨z, rfl⟩
    | ub => exact .inl rfl
    | exit => unfold scaledProgress castInt32 at e; simp only at e; repeat' split at e <;> try cases e
    | hang => unfold scaledProgress castInt32 at e; simp only at e; repeat' split at e <;> try cases e
  have e1 : catTo 256 [] [(samplerBar mem m k).startSymbol] = .ok ['['] := rfl
  rw [e1, Res.ok_bind]
  rcases hs with e | ⟨z, e⟩
  · rw [e]; rfl
  · rw [e, Res.ok_bind]
    have e2 := barLoop_eq '#' z 50 0 ['['] (by simp)
    have e3 : barLoop (samplerBar mem m k).symbol z 0 (samplerBar mem m k).length.toNat ['['] =
      barLoop '#' z 0 50 ['['] := rfl
    rw [e3, e2, Res.ok_bind]
    rcases hc 256 (['['] ++ (List.range' 0 50).map fun (j : ℕ) => if (j : ℤ) < z then '#' else ' ')
      [(samplerBar mem m k).endSymbol] with e | ⟨u, e⟩
    · rw [e]; rfl
    · rw [e]; rfl

/-- **C151.** Reconstructions and decompositions: with at least one and fewer than 21474837 samples on any number of tasks
the bar of the root task can be printed before and after each of its samples, and ends the line exactly after the last. -/
theorem C151_rec (r : ℝ → ℝ) (hr : Accurate r) (mem : Option Bool) (n T m : ℕ) (hn : 0 < n) (hT : 0 < T)
    (hn' : n * 100 < 2 ^ 31) (hm : m ≤ taskPs n T 0) :
    ∃ k ≤ 50, pbPrint r (recBar mem n T m) = .ok (barText k m (taskPs n T 0) false) ∧
      (50 * m : ℝ) / taskPs n T 0 - 1 - 1 / 100 < k ∧ (k : ℝ) ≤ 50 * m / taskPs n T 0 + 1 / 100 := by
  have h1 : n / T * (T - 1) < n ∨ n / T = 0 := by
    by_cases h : n / T = 0
    · exact .inr h
    · left
      have a := Nat.div_mul_le_self n T
      obtain ⟨u, rfl⟩ : ∃ u, T = u + 1 := ⟨T - 1, by omega⟩
      rw [Nat.mul_add, Nat.mul_one] at a
      rw [Nat.add_sub_cancel]
      have := Nat.pos_of_ne_zero h
      generalize n / (u + 1) = w at *
      omega
  have h2 : 0 < taskPs n T 0 ∧ taskPs n T 0 ≤ n := by
    simp only [taskPs, avgPs, if_true]
    rcases h1 with h | h
    · omega
    · rw [h]; omega
  obtain ⟨k, hk, h, hb, -⟩ := C151_text r hr mem false m (taskPs n T 0) h2.1 (by omega) (by omega)
  exact ⟨k, hk, h, (hb hm).1, (hb hm).2⟩

/-- **C151.** Without a posterior sample a reconstruction ends in a division by zero. -/
theorem C151_rec_empty (r : ℝ → ℝ) (hr : Accurate r) (mem : Option Bool) (T : ℕ) : pbPrint r (recBar mem 0 T 0) = .ub := by
  have h0 : r 0 = 0 := by
    have := hr 0
    simpa using this
  simp [pbPrint, recBar, pbInit, catTo, scaledProgress, taskPs, avgPs, h0]

/-- **C151.** `pb_init` leaves `showCount` as the memory was: a bar that is printed without a call of `showCount` reads
memory that was never written. -/
theorem C151_init (r : ℝ → ℝ) (hr : Accurate r) (t : ℕ) (ht : 0 < t) : pbPrint r (pbInit none '#' 50 t) = .ub := by
  have htR : (0 : ℝ) < t := by exact_mod_cast ht
  obtain ⟨h0, -⟩ := scaled_near hr (le_refl (0 : ℝ)) htR
  have z0 : r 0 = 0 := by
    have := hr 0
    simpa using this
  have e := barLoop_eq '#' 0 50 0 ['['] (by simp)
  have : t ≠ 0 := by omega
  simp [pbPrint, pbInit, catTo, scaledProgress, percentDone, castInt32, h0.ne', z0, e, this]

/-! ## Concrete cases -/

/-- Exact arithmetic is accurate. -/
theorem accurate_id : Accurate id := fun x => by simp; positivity

/-- A third done. -/
example : ∃ k ≤ 50, pbPrint id (samplerBar none 3000 1000) = .ok (barText k 1000 3000 true) ∧ 15 < k := by
  obtain ⟨k, hk, h, hb, -⟩ := C151_text id accurate_id none true 1000 3000 (by norm_num) (by norm_num) (by norm_num)
  refine ⟨k, hk, h, ?_⟩
  have := (hb (by norm_num)).1
  norm_num at this
  have : (15 : ℝ) < k := by linarith
  exact_mod_cast this

example : ∃ s : Sampler 1, Reachable exOpts exL s ∧ s.saved ≠ [] ∧ 0 < exOpts.maxNumSaves ∧
    exOpts.maxNumSaves * 100 < 2 ^ 31 := by
  obtain ⟨s, hs, h1, h2⟩ := ex_run
  exact ⟨s, ⟨0, exDraws, [exRound], exDraws_valid, by simpa using exRound_valid, hs⟩, by rw [h2]; simp, by simp, by simp⟩

example : pbPrint id (recBar none 5 3 0) ≠ .ub ∧ taskPs 5 3 0 = 3 := by
  obtain ⟨k, -, h, -⟩ := C151_rec id accurate_id none 5 3 0 (by norm_num) (by norm_num) (by norm_num) (by simp)
  exact ⟨by rw [h]; simp, by simp [taskPs, avgPs]⟩

end Mica
