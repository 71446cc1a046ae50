import Verif.Proof.AutoLevels
import Verif.Props.SamplerSafe

/-!
# C125: the automatic number of levels
-/

namespace Mica

variable {d : ℕ}

/-- C125: with the number of levels left open, 1000 levels end the program, fewer than 10 are never
enough, and in between there are enough exactly if the likelihood has become flat: the mean of the last
gaps between thresholds is below the tolerance and each of them below 1.1 tolerances. -/
theorem C125_rule (o : SOpts) (ls : List Level) (ht : 0 ≤ o.ptol) :
    (enoughLevels o 0 ls = .exit ↔ 1000 ≤ ls.length) ∧
    (enoughLevels o 0 ls = .ok true ↔ 10 ≤ ls.length ∧ ls.length < 1000 ∧ Flattened o.ptol ls) ∧
    (enoughLevels o 0 ls = .ok false ↔
      ls.length < 10 ∨ (ls.length < 1000 ∧ ¬ Flattened o.ptol ls)) := by
  unfold enoughLevels
  rw [if_pos rfl]
  by_cases h1 : ls.length ≥ 1000
  · rw [if_pos h1]
    refine ⟨by simp [h1], ?_, ?_⟩
    · simp; omega
    · simp; omega
  rw [if_neg h1]
  by_cases h2 : ls.length < 10
  · rw [if_pos h2]
    refine ⟨by simp; omega, by simp; omega, by simp [h2]⟩
  rw [if_neg h2]
  obtain ⟨mx, he, hx⟩ := enoughScan_spec ls (numToCheck ls.length) (ls.length - 1) 0 0 (-DBL_MAX)
    (by omega) (by omega)
  have hg := gaps_numToCheck ls.length
  generalize min (numToCheck ls.length) (ls.length - 1) = n at he hx hg
  have hD := DBL_MAX_pos
  have key : ((0 + (thresholdAt ls (ls.length - 1) - thresholdAt ls (ls.length - 1 - n))) /
      ((0 + n : ℕ) : ℝ) < o.ptol ∧ mx < o.ptol * 1.1) ↔ Flattened o.ptol ls := by
    rw [hx, zero_add, zero_add]
    constructor
    · rintro ⟨a, _, b⟩
      exact ⟨n, hg, a, fun j h3 h4 => by rw [mul_comm]; exact b j h3 (by omega)⟩
    · rintro ⟨m, hm, a, b⟩
      obtain rfl := gaps_unique hm hg
      exact ⟨a, by nlinarith, fun j h3 h4 => by rw [mul_comm]; exact b j h3 (by omega)⟩
  rw [he]
  simp only [Res.ok_bind, Res.pure_eq, Res.ok.injEq, decide_eq_true_eq, decide_eq_false_iff_not, key]
  refine ⟨by simp; omega, ⟨fun h => ⟨by omega, by omega, h⟩, fun h => h.2.2⟩,
    ⟨fun h => .inr ⟨by omega, h⟩, ?_⟩⟩
  rintro (h | h)
  · omega
  · exact h.2

/-- C125: at least 9 gaps are looked at, at least 20 of them from 21 levels on; the gap above the lowest
level is left out from 22 levels on. -/
theorem C125_gaps (size n : ℕ) (h : 10 ≤ size) (hn : GapsChecked size n) :
    9 ≤ n ∧ n < size ∧ (21 ≤ size → 20 ≤ n) ∧ (22 ≤ size → n + 1 < size) := by
  rcases hn with ⟨h1, rfl⟩ | ⟨h1, h2, h3⟩
  · omega
  · have a : 20 ≤ n := by
      by_contra hc
      have : (n + 1) * (n + 1) ≤ 20 * 20 := Nat.mul_le_mul (by omega) (by omega)
      omega
    have b : n + 1 < size := by
      by_contra hc
      have : (size - 1) * (size - 1) ≤ n * n := Nat.mul_le_mul (by omega) (by omega)
      obtain ⟨m, rfl⟩ : ∃ m, size = m + 1 := ⟨size - 1, by omega⟩
      simp only [Nat.add_sub_cancel] at this
      nlinarith
    omega

/-- C125: as the lowest threshold is the lowest double, at least 22 levels are created before the
automatic rule can hold (not 10), provided the first threshold created lies 1.1 tolerances above it. -/
theorem C125_at_least (o : SOpts) (ls : List Level) (ht : 0 ≤ o.ptol)
    (h1 : 1.1 * o.ptol ≤ thresholdAt ls 1 - thresholdAt ls 0) (he : enoughLevels o 0 ls = .ok true) :
    22 ≤ ls.length := by
  obtain ⟨h10, _, n, hg, _, hj⟩ := (C125_rule o ls ht).2.1.1 he
  by_contra hc
  have hn : n = ls.length - 1 := by
    rcases hg with ⟨_, h⟩ | ⟨h, _⟩ <;> omega
  have := hj 0 (by omega) (by omega)
  norm_num at this h1
  linarith

/-- C125: in a run that leaves the number of levels open, creation of levels stays open until the
likelihood has become flat; from then on the number of levels is the one reached then. -/
theorem C125_run (o : SOpts) (ho : GoodOpts o) (hauto : o.maxNumLevels = 0) (ht : 0 ≤ o.ptol)
    (L : (Fin d → ℝ) → ℝ) (hL : ∀ x, -DBL_MAX ≤ L x) (s : Sampler d) (hs : Reachable o L s)
    (hlen : s.levels.length < 1000) (i : RoundIn d) (s' : Sampler d) (h : round o L i s = .ok s') :
    (enoughLevels o s.maxLvRoot s.levels = .ok true ↔ 10 ≤ s.levels.length ∧ Flattened o.ptol s.levels) ∧
    (10 ≤ s.levels.length → Flattened o.ptol s.levels →
      s'.levels.map (·.logl) = s.levels.map (·.logl) ∧ Flattened o.ptol s'.levels) := by
  have h1 : enoughLevels o s.maxLvRoot s.levels = .ok true ↔
      10 ≤ s.levels.length ∧ Flattened o.ptol s.levels := by
    rw [C59_agreement o ho L hL s hs, hauto, (C125_rule o s.levels ht).2.1]
    exact ⟨fun h => ⟨h.1, h.2.2⟩, fun h => ⟨h.1, hlen, h.2⟩⟩
  refine ⟨h1, fun h10 hf => ?_⟩
  obtain ⟨_, hm, _⟩ := C59_enough_is_final o ho L hL s s' hs i (h1.2 ⟨h10, hf⟩) h
  refine ⟨hm, ?_⟩
  have hlen' : s'.levels.length = s.levels.length := by simpa using congrArg List.length hm
  have hth : ∀ j, thresholdAt s'.levels j = thresholdAt s.levels j := by
    intro j
    have hj : (s'.levels.map (·.logl))[j]? = (s.levels.map (·.logl))[j]? := by rw [hm]
    simp only [List.getElem?_map] at hj
    unfold thresholdAt
    cases h2 : s'.levels[j]? <;> cases h3 : s.levels[j]? <;> simp_all
  unfold Flattened at *
  simpa only [hlen', hth] using hf

/-- A table of `n` levels, the first at the lowest double and the others `g` apart. -/
noncomputable def levelsEx (g : ℝ) (n : ℕ) : List Level :=
  ⟨⟨-DBL_MAX, 0⟩, 0, 0, 0, 0, 0⟩ :: (List.range n).map fun i : ℕ => ⟨⟨g * i, 0⟩, 0, 0, 0, 0, 0⟩

/-- Automatic number of levels. -/
noncomputable def autoEx : SOpts := { exOpts with maxNumLevels := 0 }

theorem levelsEx_at (g : ℝ) (n j : ℕ) (h : j < n) : thresholdAt (levelsEx g n) (j + 1) = g * j := by
  simp [thresholdAt, levelsEx, h]

example : ∃ s, Reachable autoEx exL s ∧ GoodOpts autoEx ∧ autoEx.maxNumLevels = 0 ∧ 0 ≤ autoEx.ptol ∧
    s.levels.length < 1000 := by
  refine ⟨initSampler autoEx exL 0 exDraws, ⟨0, exDraws, [], ⟨rfl, by simp [exDraws, autoEx]⟩, by simp, rfl⟩,
    ⟨by simp [autoEx], by simp [autoEx], by simp [autoEx], by simp [autoEx], by norm_num [autoEx]⟩, rfl, ?_, ?_⟩
  · rw [show autoEx.ptol = 0.1 from rfl]; norm_num
  · simp [initSampler]

/-- Twenty-two levels close to each other are enough, twenty-one are not. -/
example : enoughLevels autoEx 0 (levelsEx 0.05 21) = .ok true ∧
    enoughLevels autoEx 0 (levelsEx 0.05 20) = .ok false := by
  have hl : ∀ n, (levelsEx 0.05 n).length = n + 1 := by intro n; simp [levelsEx]
  have ht : autoEx.ptol = 0.1 := rfl
  constructor
  · refine (C125_rule autoEx _ (by rw [ht]; norm_num)).2.1.2 ⟨by rw [hl]; norm_num, by rw [hl]; norm_num,
      20, .inl ⟨by rw [hl]; norm_num, by rw [hl]; norm_num⟩, ?_, ?_⟩
    · rw [hl, ht, show 21 + 1 - 1 = 20 + 1 by norm_num, show 20 + 1 - 20 = 0 + 1 by norm_num,
        levelsEx_at _ _ _ (by norm_num), levelsEx_at _ _ _ (by norm_num)]
      norm_num
    · intro j h1 h2
      rw [hl] at h1 h2
      obtain ⟨k, rfl⟩ : ∃ k, j = k + 1 := ⟨j - 1, by omega⟩
      rw [ht, levelsEx_at _ _ _ (by omega), levelsEx_at _ _ _ (by omega)]
      push_cast; norm_num; linarith
  · have h0 : (0 : ℝ) ≤ autoEx.ptol := by rw [ht]; norm_num
    refine (C125_rule autoEx _ h0).2.2.2 (.inr ⟨by rw [hl]; norm_num, fun hf => ?_⟩)
    have := C125_at_least autoEx (levelsEx 0.05 20) h0 ?_
      ((C125_rule autoEx _ h0).2.1.2 ⟨by rw [hl]; norm_num, by rw [hl]; norm_num, hf⟩)
    · rw [hl] at this; omega
    · rw [levelsEx_at _ _ 0 (by norm_num), ht]
      have := DBL_MAX_big
      simp [thresholdAt, levelsEx]; norm_num; linarith

end Mica
