import Verif.Proof.LineLayout

/-! # Helper lemmas: prior ranges and fixed parameters of the line model -/

namespace Mica

theorem flatMap_range_getD {α : Type} (f : ℕ → List α) (L : ℕ) (hf : ∀ t, (f t).length = L)
    (n t r : ℕ) (ht : t < n) (hr : r < L) (d : α) :
    ((List.range n).flatMap f).getD (L * t + r) d = (f t).getD r d := by
  induction n generalizing t with
  | zero => omega
  | succ n ih =>
    have hlen : ∀ m, ((List.range m).flatMap f).length = L * m := by
      intro m
      induction m with
      | zero => simp
      | succ m ihm =>
        rw [List.range_succ, List.flatMap_append, List.length_append, ihm]
        simp [hf]; ring
    rw [List.range_succ, List.flatMap_append]
    by_cases h : t < n
    · rw [List.getD_append _ _ _ _ ?_, ih t h]
      rw [hlen]
      have : L * (t + 1) ≤ L * n := Nat.mul_le_mul_left _ h
      rw [Nat.mul_add] at this; omega
    · have ht' : t = n := by omega
      subst ht'
      rw [List.getD_append_right _ _ _ _ (by rw [hlen]; omega), hlen]
      simp

theorem flatMap_range_length {α : Type} (f : ℕ → List α) (L : ℕ) (hf : ∀ t, (f t).length = L)
    (n : ℕ) : ((List.range n).flatMap f).length = L * n := by
  induction n with
  | zero => simp
  | succ m ihm =>
    rw [List.range_succ, List.flatMap_append, List.length_append, ihm]
    simp [hf]; ring

namespace LineCfg
variable (c : LineCfg)

theorem blockRanges_length : c.lineBlockRanges.length = c.blk := by
  unfold lineBlockRanges blk
  rw [List.length_cons, flatMap_range_length _ 3 (by simp)]; omega

theorem varPart_length :
    ((List.range (c.numVar / 3)).flatMap fun t =>
      [c.varParRange (3 * t) 0, c.varParRange (3 * t) 1, c.varParRange (3 * t) 2]).length
      = c.numVar := by
  rw [flatMap_range_length _ 3 (by simp)]
  obtain ⟨m, hm⟩ := c.numVar_mod
  rw [hm]; omega

theorem parRanges_length : c.parRanges.length = c.numParams := by
  unfold parRanges numParams
  rw [List.length_append, varPart_length, flatMap_range_length _ c.blk
    (fun _ => c.blockRanges_length), numLine_div, numLine_eq]

theorem rng_var (t q : ℕ) (hq : q < 3) (h : 3 * t + q < c.numVar) :
    c.rng (3 * t + q) = c.varParRange (3 * t) q := by
  unfold rng parRanges
  rw [List.getD_append _ _ _ _ (by rw [varPart_length]; exact h),
    flatMap_range_getD _ 3 (by simp) _ _ _ (by obtain ⟨m, hm⟩ := c.numVar_mod; omega) hq]
  have : q = 0 ∨ q = 1 ∨ q = 2 := by omega
  rcases this with rfl | rfl | rfl <;> rfl

theorem rng_line (b q : ℕ) (hb : b < c.nblocks) (hq : q < c.blk) :
    c.rng (c.blk * b + c.numVar + q) = c.lineBlockRanges.getD q (0, 0) := by
  unfold rng parRanges
  rw [List.getD_append_right _ _ _ _ (by rw [varPart_length]; omega), varPart_length]
  rw [show c.blk * b + c.numVar + q - c.numVar = c.blk * b + q by omega,
    flatMap_range_getD _ c.blk (fun _ => c.blockRanges_length) _ _ _ (by rwa [numLine_div]) hq]

theorem rng_err (b : ℕ) (hb : b < c.nblocks) :
    c.rng (c.blk * b + c.numVar) = (Real.log 1, Real.log (1 + 10)) := by
  have := c.rng_line b 0 hb c.blk_pos
  rw [Nat.add_zero] at this
  rw [this]; rfl

theorem rng_comp (b k t : ℕ) (hb : b < c.nblocks) (hk : k < c.ng) (ht : t < 3) :
    c.rng (c.blk * b + c.numVar + (1 + 3 * k + t)) =
      [c.ampWindow k, c.lagWindow k, c.widthWindow k].getD t (0, 0) := by
  rw [c.rng_line b _ hb (by unfold blk; omega)]
  unfold lineBlockRanges
  rw [show 1 + 3 * k + t = (3 * k + t) + 1 by omega, List.getD_cons_succ,
    flatMap_range_getD _ 3 (by simp) _ _ _ hk ht]

theorem rng_amp (b k : ℕ) (hb : b < c.nblocks) (hk : k < c.ng) :
    c.rng (c.blk * b + c.numVar + (1 + 3 * k)) = c.ampWindow k := by
  simpa using c.rng_comp b k 0 hb hk (by omega)

theorem rng_lag (b k : ℕ) (hb : b < c.nblocks) (hk : k < c.ng) :
    c.rng (c.blk * b + c.numVar + (1 + 3 * k + 1)) = c.lagWindow k := by
  simpa using c.rng_comp b k 1 hb hk (by omega)

theorem rng_width (b k : ℕ) (hb : b < c.nblocks) (hk : k < c.ng) :
    c.rng (c.blk * b + c.numVar + (1 + 3 * k + 2)) = c.widthWindow k := by
  simpa using c.rng_comp b k 2 hb hk (by omega)

end LineCfg

/-! ## Fixed parameters -/

theorem applyFix_append (ws : List (ℕ × ℝ)) (w : ℕ × ℝ) :
    applyFix (ws ++ [w]) = Function.update (applyFix ws) w.1 (some w.2) := by
  simp [applyFix]

theorem applyFix_some (ws : List (ℕ × ℝ)) (a : ℕ) (v : ℝ) (h : applyFix ws a = some v) :
    (a, v) ∈ ws := by
  induction ws using List.reverseRecOn with
  | nil => simp [applyFix] at h
  | append_singleton ws w ih =>
    rw [applyFix_append] at h
    by_cases hw : a = w.1
    · subst hw; simp at h; subst h; simp
    · rw [Function.update_of_ne hw] at h
      exact List.mem_append_left _ (ih h)

theorem applyFix_none (ws : List (ℕ × ℝ)) (a : ℕ) :
    applyFix ws a = none ↔ ∀ v, (a, v) ∉ ws := by
  induction ws using List.reverseRecOn with
  | nil => simp [applyFix]
  | append_singleton ws w ih =>
    rw [applyFix_append]
    by_cases hw : a = w.1
    · subst hw; simp; exact ⟨w.2, fun _ => rfl⟩
    · rw [Function.update_of_ne hw, ih]
      refine forall_congr' fun v => ?_
      simp only [List.mem_append, List.mem_singleton, not_or]
      refine ⟨fun h => ⟨h, fun h' => hw (by rw [← h'])⟩, fun h => h.1⟩

/-- A later group of assignments decides the addresses it touches. -/
theorem applyFix_append_of_not_mem (ws ws' : List (ℕ × ℝ)) (a : ℕ) (h : ∀ v, (a, v) ∉ ws') :
    applyFix (ws ++ ws') a = applyFix ws a := by
  induction ws' using List.reverseRecOn with
  | nil => simp
  | append_singleton l w ih =>
    rw [← List.append_assoc, applyFix_append]
    have hw : a ≠ w.1 := fun e => h w.2 (by rw [e]; simp)
    rw [Function.update_of_ne hw]
    exact ih fun v hv => h v (List.mem_append_left _ hv)

theorem applyFix_of_mem (ws ws' : List (ℕ × ℝ)) (a : ℕ) (v : ℝ) (h : (a, v) ∈ ws')
    (hu : ∀ v', (a, v') ∈ ws' → v' = v) : applyFix (ws ++ ws') a = some v := by
  induction ws' using List.reverseRecOn with
  | nil => simp at h
  | append_singleton l w ih =>
    rw [← List.append_assoc, applyFix_append]
    by_cases hw : a = w.1
    · subst hw
      simp [hu w.2 (by simp)]
    · rw [Function.update_of_ne hw]
      refine ih ?_ fun v' hv => hu v' (List.mem_append_left _ hv)
      rcases List.mem_append.1 h with h | h
      · exact h
      · simp only [List.mem_singleton] at h
        exact absurd (by rw [← h]) hw

namespace LineCfg
variable (c : LineCfg)

theorem mem_fixComps {off : ℕ} {val : ℕ → ℝ} {ic a : ℕ} {v : ℝ} :
    (a, v) ∈ c.fixComps off val ic ↔ ∃ k < c.ng, a = ic + 3 * k + off ∧ v = val k := by
  simp only [fixComps, List.mem_map, List.mem_range, Prod.mk.injEq]
  exact ⟨fun ⟨k, h1, h2, h3⟩ => ⟨k, h1, h2.symm, h3.symm⟩,
    fun ⟨k, h1, h2, h3⟩ => ⟨k, h1, h2.symm, h3.symm⟩⟩

theorem mem_fixLines {off : ℕ} {val : ℕ → ℝ} {ic a n : ℕ} {v : ℝ} :
    (a, v) ∈ c.fixLines off val ic n ↔
      ∃ b < n, ∃ k < c.ng, a = c.blk * b + ic + (1 + 3 * k + off) ∧ v = val k := by
  induction n generalizing ic with
  | zero => simp [fixLines]
  | succ n ih =>
    simp only [fixLines, List.mem_append, mem_fixComps, ih]
    constructor
    · rintro (⟨k, hk, ha, hv⟩ | ⟨b, hb, k, hk, ha, hv⟩)
      · exact ⟨0, by omega, k, hk, by omega, hv⟩
      · refine ⟨b + 1, by omega, k, hk, ?_, hv⟩
        rw [ha, Nat.mul_add]; unfold blk; omega
    · rintro ⟨b, hb, k, hk, ha, hv⟩
      cases b with
      | zero => left; exact ⟨k, hk, by omega, hv⟩
      | succ b =>
        right
        refine ⟨b, by omega, k, hk, ?_, hv⟩
        rw [ha, Nat.mul_add]; unfold blk; omega

theorem mem_fixSets {off : ℕ} {val : ℕ → ℝ} {ic a : ℕ} {l : List ℕ} {v : ℝ} :
    (a, v) ∈ c.fixSets off val ic l ↔
      ∃ b < l.sum, ∃ k < c.ng, a = c.blk * b + ic + (1 + 3 * k + off) ∧ v = val k := by
  induction l generalizing ic with
  | nil => simp [fixSets]
  | cons n l ih =>
    simp only [fixSets, List.mem_append, mem_fixLines, ih, List.sum_cons]
    have hB : (1 + 3 * c.ng) = c.blk := rfl
    rw [hB]
    constructor
    · rintro (⟨b, hb, k, hk, ha, hv⟩ | ⟨b, hb, k, hk, ha, hv⟩)
      · exact ⟨b, by omega, k, hk, ha, hv⟩
      · refine ⟨n + b, by omega, k, hk, ?_, hv⟩
        rw [ha, Nat.mul_add, Nat.mul_comm n]; omega
    · rintro ⟨b, hb, k, hk, ha, hv⟩
      by_cases h : b < n
      · left; exact ⟨b, h, k, hk, ha, hv⟩
      · right
        obtain ⟨b', rfl⟩ := Nat.exists_eq_add_of_le (not_lt.1 h)
        refine ⟨b', by omega, k, hk, ?_, hv⟩
        rw [ha, Nat.mul_add, Nat.mul_comm n]; omega

theorem mem_fixAll {off : ℕ} {val : ℕ → ℝ} {a : ℕ} {v : ℝ} :
    (a, v) ∈ c.fixAll off val ↔
      ∃ b < c.nblocks, ∃ k < c.ng, a = c.blk * b + c.numVar + (1 + 3 * k + off) ∧ v = val k := by
  unfold fixAll nblocks
  by_cases hu : c.uniTf = 1
  · simp only [hu, if_true, List.mem_flatMap, List.mem_map, List.mem_range, Prod.mk.injEq]
    constructor
    · rintro ⟨b, hb, k, hk, ha, hv⟩
      refine ⟨b, hb, k, hk, ?_, hv.symm⟩
      rw [← ha, Nat.mul_comm]; unfold blk; omega
    · rintro ⟨b, hb, k, hk, ha, hv⟩
      refine ⟨b, hb, k, hk, ?_, hv.symm⟩
      rw [ha, Nat.mul_comm]; unfold blk; omega
  · simp only [hu, if_false]
    rw [mem_fixSets]

theorem mem_shared {a a' : ℕ} :
    (a, a') ∈ c.shared ↔ ∃ i j k t, 1 ≤ i ∧ j < c.nl.getD i 0 ∧ k < c.ng ∧ (t = 1 ∨ t = 2) ∧
      a = c.idxLine i j + (1 + 3 * k + t) ∧ a' = c.idxLine 0 j + (1 + 3 * k + t) := by
  simp only [shared, List.mem_flatMap, List.mem_range, List.mem_cons, List.not_mem_nil,
    or_false, Prod.mk.injEq]
  constructor
  · rintro ⟨i, hi, j, hj, k, hk, (⟨h1, h2⟩ | ⟨h1, h2⟩)⟩
    · exact ⟨i + 1, j, k, 1, by omega, hj, hk, Or.inl rfl, by omega, by omega⟩
    · exact ⟨i + 1, j, k, 2, by omega, hj, hk, Or.inr rfl, by omega, by omega⟩
  · rintro ⟨i, j, k, t, hi, hj, hk, ht, h1, h2⟩
    have hil := lt_of_getD_lt hj
    refine ⟨i - 1, by omega, j, by rwa [Nat.sub_add_cancel hi], k, hk, ?_⟩
    rw [Nat.sub_add_cancel hi]
    rcases ht with rfl | rfl
    · left; exact ⟨by omega, by omega⟩
    · right; exact ⟨by omega, by omega⟩

end LineCfg
end Mica
