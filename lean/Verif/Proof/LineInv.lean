import Verif.Proof.LineRange
import Verif.Proof.Sort
import Verif.Props.Wrap
import Mathlib.Data.List.Nodup

/-! # Helper lemmas: invariant of the line model's moves -/

namespace Mica

theorem dnestWrap_le (x lo hi : ℝ) (h : lo ≤ hi) :
    ∃ y, dnestWrap x lo hi = .ok y ∧ lo ≤ y ∧ y ≤ hi := by
  rcases h.lt_or_eq with h | h
  · obtain ⟨y, hy, h1, h2, _⟩ := C01_wrap_range x lo hi h
    exact ⟨y, hy, h1, h2.le⟩
  · refine ⟨lo, ?_, le_rfl, h.le⟩
    simp [dnestWrap, cmod, h]

/-- Sequential copies whose sources are never targets. -/
theorem foldl_copy (l : List (ℕ × ℕ)) (pm : ℕ → ℝ)
    (hs : ∀ p ∈ l, ∀ p' ∈ l, p.2 ≠ p'.1) (hf : ∀ p ∈ l, ∀ p' ∈ l, p.1 = p'.1 → p.2 = p'.2) :
    (∀ a, (∀ p ∈ l, p.1 ≠ a) →
      l.foldl (fun pm p => Function.update pm p.1 (pm p.2)) pm a = pm a) ∧
    (∀ p ∈ l, l.foldl (fun pm p => Function.update pm p.1 (pm p.2)) pm p.1 = pm p.2) := by
  induction l using List.reverseRecOn with
  | nil => simp
  | append_singleton l w ih =>
    obtain ⟨ih1, ih2⟩ := ih (fun p hp p' hp' => hs p (by simp [hp]) p' (by simp [hp']))
      (fun p hp p' hp' => hf p (by simp [hp]) p' (by simp [hp']))
    simp only [List.foldl_append, List.foldl_cons, List.foldl_nil]
    have hw : l.foldl (fun pm p => Function.update pm p.1 (pm p.2)) pm w.2 = pm w.2 :=
      ih1 w.2 fun p hp => (hs w (by simp) p (by simp [hp])).symm
    refine ⟨fun a ha => ?_, fun p hp => ?_⟩
    · rw [Function.update_of_ne (fun e => ha w (by simp) e.symm)]
      exact ih1 a fun p hp => ha p (by simp [hp])
    · by_cases e : p.1 = w.1
      · rw [e, Function.update_self, hw, hf p hp w (by simp) e]
      · rw [Function.update_of_ne e]
        rcases List.mem_append.1 hp with h | h
        · exact ih2 p h
        · simp only [List.mem_singleton] at h; exact absurd (by rw [h]) e

namespace LineCfg
variable (c : LineCfg)

/-- Address of the lag of component `k` of block `b`. -/
def cen (b k : ℕ) : ℕ := c.blk * b + c.numVar + (1 + 3 * k + 1)

theorem cen_inj {b b' k k' : ℕ} (hk : k < c.ng) (hk' : k' < c.ng) (h : c.cen b k = c.cen b' k') :
    b = b' ∧ k = k' := by
  unfold cen at h
  have := block_addr_inj (B := c.blk) (b := b) (b' := b') (q := 1 + 3 * k + 1)
    (q' := 1 + 3 * k' + 1) (by unfold blk; omega) (by unfold blk; omega) (by omega)
  exact ⟨this.1, by omega⟩

theorem cen_lt {b k : ℕ} (hb : b < c.nblocks) (hk : k < c.ng) : c.cen b k < c.numParams :=
  c.addr_lt hb (by unfold blk; omega)

theorem roleOf_addr (b q : ℕ) (hq : q < c.blk) :
    c.roleOf (c.blk * b + c.numVar + q) = ((q : Int) - 1).tmod 3 ∧
    c.compOf (c.blk * b + c.numVar + q) = ((q : Int) - 1).tdiv 3 := by
  have h : (((c.blk * b + c.numVar + q : ℕ) : Int) - c.numVar).tmod c.blk = q := by
    have : ((c.blk * b + c.numVar + q : ℕ) : Int) - c.numVar = ((q + c.blk * b : ℕ) : Int) := by
      push_cast; ring
    rw [this, Int.tmod_eq_emod_of_nonneg (Int.natCast_nonneg _), ← Int.natCast_mod,
      Nat.add_mul_mod_self_left, Nat.mod_eq_of_lt hq]
  unfold roleOf compOf
  rw [h]; exact ⟨rfl, rfl⟩

theorem role_comp (b k t : ℕ) (hk : k < c.ng) (ht : t < 3) :
    c.roleOf (c.blk * b + c.numVar + (1 + 3 * k + t)) = t ∧
    c.compOf (c.blk * b + c.numVar + (1 + 3 * k + t)) = k := by
  obtain ⟨h1, h2⟩ := c.roleOf_addr b (1 + 3 * k + t) (by unfold blk; omega)
  rw [h1, h2]
  have : ((1 + 3 * k + t : ℕ) : Int) - 1 = ((3 * k + t : ℕ) : Int) := by push_cast; ring
  rw [this]
  constructor
  · rw [Int.tmod_eq_emod_of_nonneg (by positivity)]; omega
  · rw [Int.tdiv_eq_ediv_of_nonneg (by positivity)]; omega

theorem role_err (b : ℕ) : c.roleOf (c.blk * b + c.numVar) = -1 := by
  have := (c.roleOf_addr b 0 c.blk_pos).1
  rw [Nat.add_zero] at this
  rw [this]; rfl

/-- Every offset within a block is the error parameter or a component's parameter. -/
theorem offset_cases {q : ℕ} (hq : q < c.blk) :
    q = 0 ∨ ∃ k t, k < c.ng ∧ t < 3 ∧ q = 1 + 3 * k + t := by
  unfold blk at hq
  rcases Nat.eq_zero_or_pos q with h | h
  · left; exact h
  · right; exact ⟨(q - 1) / 3, (q - 1) % 3, by omega, by omega, by omega⟩

/-- What the code needs of the first data set if lags and widths are shared. -/
def SharedOk : Prop := c.uniTf = 2 → ∀ i, c.nl.getD i 0 ≤ c.nl.getD 0 0

theorem shared_spec (hu : c.uniTf = 2) (ho : c.SharedOk) {a a' : ℕ} (h : (a, a') ∈ c.shared) :
    ∃ i j k t, 1 ≤ i ∧ j < c.nl.getD i 0 ∧ j < c.nl.getD 0 0 ∧ k < c.ng ∧ (t = 1 ∨ t = 2) ∧
      a = c.blk * c.bno i j + c.numVar + (1 + 3 * k + t) ∧
      a' = c.blk * c.bno 0 j + c.numVar + (1 + 3 * k + t) := by
  obtain ⟨i, j, k, t, hi, hj, hk, ht, h1, h2⟩ := c.mem_shared.1 h
  have hj0 : j < c.nl.getD 0 0 := lt_of_lt_of_le hj (ho hu i)
  rw [c.idxLine_eq _ _ hj] at h1
  rw [c.idxLine_eq _ _ hj0] at h2
  exact ⟨i, j, k, t, hi, hj, hj0, hk, ht, h1, h2⟩

theorem shared_mk (hu : c.uniTf = 2) (ho : c.SharedOk) {i j k t : ℕ} (hi : 1 ≤ i)
    (hj : j < c.nl.getD i 0) (hk : k < c.ng) (ht : t = 1 ∨ t = 2) :
    (c.blk * c.bno i j + c.numVar + (1 + 3 * k + t),
      c.blk * c.bno 0 j + c.numVar + (1 + 3 * k + t)) ∈ c.shared := by
  have hj0 : j < c.nl.getD 0 0 := lt_of_lt_of_le hj (ho hu i)
  rw [c.mem_shared]
  refine ⟨i, j, k, t, hi, hj, hk, ht, ?_, ?_⟩
  · rw [c.idxLine_eq _ _ hj]
  · rw [c.idxLine_eq _ _ hj0]

theorem shared_source (hu : c.uniTf = 2) (ho : c.SharedOk) :
    ∀ p ∈ c.shared, ∀ p' ∈ c.shared, p.2 ≠ p'.1 := by
  rintro ⟨a, a'⟩ h ⟨d, d'⟩ h' e
  obtain ⟨i, j, k, t, hi, hj, hj0, hk, ht, h1, h2⟩ := c.shared_spec hu ho h
  obtain ⟨i', j', k', t', hi', hj', hj0', hk', ht', h1', h2'⟩ := c.shared_spec hu ho h'
  simp only at e
  have := block_addr_inj (B := c.blk) (b := c.bno 0 j) (b' := c.bno i' j') (q := 1 + 3 * k + t)
    (q' := 1 + 3 * k' + t') (by unfold blk; omega) (by unfold blk; omega) (by omega)
  have := (c.bno_inj hj0 hj' this.1).2 (by omega)
  omega

theorem shared_fun (hu : c.uniTf = 2) (ho : c.SharedOk) :
    ∀ p ∈ c.shared, ∀ p' ∈ c.shared, p.1 = p'.1 → p.2 = p'.2 := by
  rintro ⟨a, a'⟩ h ⟨d, d'⟩ h' e
  obtain ⟨i, j, k, t, hi, hj, hj0, hk, ht, h1, h2⟩ := c.shared_spec hu ho h
  obtain ⟨i', j', k', t', hi', hj', hj0', hk', ht', h1', h2'⟩ := c.shared_spec hu ho h'
  simp only at e
  have hb := block_addr_inj (B := c.blk) (b := c.bno i j) (b' := c.bno i' j') (q := 1 + 3 * k + t)
    (q' := 1 + 3 * k' + t') (by unfold blk; omega) (by unfold blk; omega) (by omega)
  have := (c.bno_inj hj hj' hb.1).1
  subst this
  simp only
  omega

theorem share_ok (ho : c.SharedOk) (pm : ℕ → ℝ) : ∃ q, c.share pm = .ok q ∧
    (∀ a, (c.uniTf = 2 → ∀ p ∈ c.shared, p.1 ≠ a) → q a = pm a) ∧
    (c.uniTf = 2 → ∀ p ∈ c.shared, q p.1 = pm p.2) := by
  unfold share
  by_cases hu : c.uniTf = 2
  · have hc : c.nl.tail.all (fun n => n ≤ c.nl.headD 0) = true := by
      rw [List.all_eq_true]
      intro n hn
      obtain ⟨i, hi, rfl⟩ := List.getElem_of_mem hn
      have := ho hu (i + 1)
      rw [List.length_tail] at hi
      rw [List.getD_eq_getElem _ _ (by omega)] at this
      have h0 : c.nl.headD 0 = c.nl.getD 0 0 := by cases c.nl <;> rfl
      rw [List.getElem_tail, h0]
      simpa using this
    obtain ⟨h1, h2⟩ := foldl_copy c.shared pm (c.shared_source hu ho) (c.shared_fun hu ho)
    simp only [hu, if_true, setCenterWidth, hc]
    exact ⟨_, rfl, fun a ha => h1 a (ha trivial), fun _ => h2⟩
  · simp only [hu, if_false]
    exact ⟨pm, rfl, fun _ _ => rfl, fun h => absurd h (by simp)⟩

theorem share_ub (pm : ℕ → ℝ) (h : ¬ c.SharedOk) : c.share pm = .ub := by
  unfold SharedOk at h
  push Not at h
  obtain ⟨hu, i, hi⟩ := h
  unfold share setCenterWidth
  rw [if_pos hu, if_neg]
  rw [List.all_eq_true]
  push Not
  have hlt : i < c.nl.length := lt_of_getD_lt hi
  have hi0 : i ≠ 0 := by rintro rfl; omega
  refine ⟨c.nl.getD i 0, ?_, ?_⟩
  · rw [List.getD_eq_getElem _ _ hlt]
    obtain ⟨i, rfl⟩ := Nat.exists_eq_succ_of_ne_zero hi0
    have hlt' : i < c.nl.tail.length := by rw [List.length_tail]; omega
    have : c.nl.tail[i] = c.nl[i + 1] := List.getElem_tail _
    rw [Nat.succ_eq_add_one] at *
    rw [← this]
    exact List.getElem_mem _
  · have h0 : c.nl.headD 0 = c.nl.getD 0 0 := by cases c.nl <;> rfl
    rw [h0]; simpa using hi

/-! ## Which parameters are fixed -/

theorem fix_shared (hu : c.uniTf = 2) {p : ℕ × ℕ} (hp : p ∈ c.shared) : c.fix p.1 ≠ none := by
  unfold fix
  rw [Ne, applyFix_none]
  push Not
  refine ⟨99.9, ?_⟩
  unfold fixWrites
  refine List.mem_append_right _ ?_
  rw [if_pos hu, List.mem_map]
  exact ⟨p, hp, rfl⟩

/-- Where a fixed value that is not a placeholder comes from. -/
theorem fix_cases {a : ℕ} {v : ℝ} (h : c.fix a = some v) :
    (c.conSys = false ∧ v = 0 ∧ ∃ t, a = 3 * t ∧ a < c.numVar) ∨
    (c.lineSys = false ∧ v = 0 ∧ ∃ b < c.nblocks, a = c.blk * b + c.numVar) ∨
    (2 ≤ c.typeLag ∧ c.typeLag ≤ 3 ∧ ∃ b < c.nblocks, ∃ k < c.ng,
      a = c.cen b k ∧ v = c.lagLow + k * c.dlag) ∨
    (c.typeTf = 1 ∧ c.typeLag = 3 ∧ v = Real.log (c.dlag / 2) ∧ ∃ b < c.nblocks, ∃ k < c.ng,
      a = c.blk * b + c.numVar + (1 + 3 * k + 2)) ∨
    (c.uniTf = 2 ∧ v = 99.9 ∧ ∃ s, (a, s) ∈ c.shared) := by
  have hm := applyFix_some _ _ _ h
  unfold fixWrites at hm
  simp only [List.mem_append] at hm
  rcases hm with (((hm | hm) | hm) | hm) | hm
  · left
    split at hm
    · simp at hm
    · rename_i hc
      simp only [List.mem_map, List.mem_range, Prod.mk.injEq] at hm
      obtain ⟨t, ht, h1, h2⟩ := hm
      refine ⟨by simpa using hc, by rw [← h2]; simp, t, h1.symm, ?_⟩
      obtain ⟨m, hm⟩ := c.numVar_mod; omega
  · right; left
    split at hm
    · simp at hm
    · rename_i hc
      simp only [List.mem_map, List.mem_range, Prod.mk.injEq, numLine_div] at hm
      obtain ⟨b, hb, h1, h2⟩ := hm
      exact ⟨by simpa using hc, by rw [← h2]; simp, b, hb, h1.symm⟩
  · right; right; left
    split at hm
    · rename_i hc
      obtain ⟨b, hb, k, hk, h1, h2⟩ := c.mem_fixAll.1 hm
      exact ⟨hc.1, hc.2, b, hb, k, hk, h1, h2⟩
    · simp at hm
  · right; right; right; left
    split at hm
    · rename_i hc
      obtain ⟨b, hb, k, hk, h1, h2⟩ := c.mem_fixAll.1 hm
      exact ⟨hc.1, hc.2, h2, b, hb, k, hk, h1⟩
    · simp at hm
  · right; right; right; right
    split at hm
    · rename_i hc
      simp only [List.mem_map, Prod.mk.injEq] at hm
      obtain ⟨p, hp, h1, h2⟩ := hm
      exact ⟨hc, h2.symm, p.2, by rw [← h1]; exact hp⟩
    · simp at hm

/-- Under the ordered prior a lag is fixed only as a copy. -/
theorem fix_cen_ordered (ho : c.ordered) {b k : ℕ} (hk : k < c.ng)
    (h : c.fix (c.cen b k) ≠ none) : c.uniTf = 2 ∧ ∃ s, (c.cen b k, s) ∈ c.shared := by
  obtain ⟨v, hv⟩ := Option.ne_none_iff_exists'.1 h
  have ht : c.typeLag = 0 := by unfold ordered at ho; simp at ho; exact ho.1
  rcases c.fix_cases hv with ⟨_, _, t, h1, h2⟩ | ⟨_, _, b', hb', h1⟩ | ⟨h1, _⟩ | ⟨_, h1, _⟩ |
    ⟨h1, _, h2⟩
  · unfold cen at h2; omega
  · unfold cen at h1
    have := block_addr_inj (B := c.blk) (b := b) (b' := b') (q := 1 + 3 * k + 1)
      (q' := 0) (by unfold blk; omega) c.blk_pos (by omega)
    omega
  · omega
  · omega
  · exact ⟨h1, h2⟩

end LineCfg
end Mica
