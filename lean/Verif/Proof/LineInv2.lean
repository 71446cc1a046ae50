import Verif.Proof.LineInv

/-! # Helper lemmas: the initial draw and the moves of the line model keep the invariant -/

namespace Mica

theorem foldl_update_range (f : ℕ → ℕ) (g : ℕ → ℝ) (n : ℕ) (pm : ℕ → ℝ)
    (hf : ∀ i < n, ∀ j < n, f i = f j → i = j) :
    (∀ a, (∀ j < n, a ≠ f j) →
      (List.range n).foldl (fun pm j => Function.update pm (f j) (g j)) pm a = pm a) ∧
    (∀ j < n, (List.range n).foldl (fun pm j => Function.update pm (f j) (g j)) pm (f j) = g j) := by
  induction n with
  | zero => simp
  | succ n ih =>
    obtain ⟨h1, h2⟩ := ih fun i hi j hj => hf i (by omega) j (by omega)
    rw [List.range_succ]
    simp only [List.foldl_append, List.foldl_cons, List.foldl_nil]
    refine ⟨fun a ha => ?_, fun j hj => ?_⟩
    · rw [Function.update_of_ne (ha n (by omega))]
      exact h1 a fun j hj => ha j (by omega)
    · by_cases e : j = n
      · rw [e, Function.update_self]
      · rw [Function.update_of_ne (fun h => e (hf j hj n (by omega) h))]
        exact h2 j (by omega)

theorem micaCmp_sorted (l : List ℝ) : (msortC micaCmp l).Pairwise (· ≤ ·) := by
  refine msortC_sorted micaCmp (· ≤ ·) (fun a b c => le_trans) (fun a b h => ?_)
    (fun a b h => ?_) l
  · unfold micaCmp at h; split at h
    · omega
    · linarith
  · unfold micaCmp at h; split at h
    · assumption
    · omega

namespace LineCfg
variable (c : LineCfg)

/-- All ranges are non-empty. -/
def RangesOk : Prop := ∀ i < c.numParams, (c.rng i).1 ≤ (c.rng i).2

/-- The invariant of the sampler's particles. -/
structure Inv (pm : ℕ → ℝ) : Prop where
  range : ∀ i < c.numParams, c.fix i = none → (c.rng i).1 ≤ pm i ∧ pm i ≤ (c.rng i).2
  fixed : ∀ i v, i < c.numParams → c.fix i = some v →
    (c.uniTf = 2 → ∀ p ∈ c.shared, p.1 ≠ i) → pm i = v
  copy : c.uniTf = 2 → ∀ p ∈ c.shared, pm p.1 = pm p.2
  order : c.ordered → ∀ b < c.nblocks,
    (∀ k < c.ng, c.lagRange.1 ≤ pm (c.cen b k) ∧ pm (c.cen b k) ≤ c.lagRange.2) ∧
    ∀ k, k + 1 < c.ng → pm (c.cen b k) ≤ pm (c.cen b (k + 1))

theorem ordered_window (ho : c.ordered) (k : ℕ) : c.lagWindow k = c.lagRange := by
  unfold lagWindow
  have ht : c.typeLag = 0 := by unfold ordered at ho; simp at ho; exact ho.1
  rw [if_neg (by omega), if_pos ho]

/-- Establish the invariant after `share` from facts about the vector before. -/
theorem inv_of_share (hs : c.SharedOk) (q : ℕ → ℝ)
    (hr : ∀ i < c.numParams, c.fix i = none → (c.rng i).1 ≤ q i ∧ q i ≤ (c.rng i).2)
    (hf : ∀ i v, i < c.numParams → c.fix i = some v →
      (c.uniTf = 2 → ∀ p ∈ c.shared, p.1 ≠ i) → q i = v)
    (ho : c.ordered → ∀ b < c.nblocks, (c.uniTf = 2 → ∃ j < c.nl.getD 0 0, b = c.bno 0 j) →
      (∀ k < c.ng, c.lagRange.1 ≤ q (c.cen b k) ∧ q (c.cen b k) ≤ c.lagRange.2) ∧
      ∀ k, k + 1 < c.ng → q (c.cen b k) ≤ q (c.cen b (k + 1))) :
    ∃ q', c.share q = .ok q' ∧ c.Inv q' := by
  obtain ⟨q', hq', h1, h2⟩ := c.share_ok hs q
  have hown : ∀ b, (c.uniTf = 2 → ∃ j < c.nl.getD 0 0, b = c.bno 0 j) → ∀ k < c.ng,
      q' (c.cen b k) = q (c.cen b k) := by
    intro b hb k hk
    refine h1 _ fun hu p hp e => ?_
    obtain ⟨j, hj, rfl⟩ := hb hu
    obtain ⟨i', j', k', t', hi', hj', hj0', hk', ht', h1', h2'⟩ := c.shared_spec hu hs hp
    rw [h1'] at e
    unfold cen at e
    have := block_addr_inj (B := c.blk) (b := c.bno i' j') (b' := c.bno 0 j)
      (q := 1 + 3 * k' + t') (q' := 1 + 3 * k + 1) (by unfold blk; omega) (by unfold blk; omega)
      (by omega)
    have := (c.bno_inj hj' hj this.1).2 (by omega)
    omega
  refine ⟨q', hq', ?_, ?_, ?_, ?_⟩
  · intro i hi hn
    rw [h1 i fun hu p hp e => c.fix_shared hu hp (by rw [e]; exact hn)]
    exact hr i hi hn
  · intro i v hi hv hns
    rw [h1 i hns]; exact hf i v hi hv hns
  · intro hu p hp
    rw [h2 hu p hp, h1 p.2 fun _ p' hp' e => c.shared_source hu hs p hp p' hp' e.symm]
  · intro hord b hb
    by_cases hu : c.uniTf = 2
    · obtain ⟨i, j, hj, rfl⟩ := c.bno_surj b hb
      have hj0 : j < c.nl.getD 0 0 := lt_of_lt_of_le hj (hs hu i)
      obtain ⟨g1, g2⟩ := ho hord (c.bno 0 j) (c.bno_lt _ _ hj0) fun _ => ⟨j, hj0, rfl⟩
      rcases Nat.eq_zero_or_pos i with rfl | hi
      · refine ⟨fun k hk => ?_, fun k hk => ?_⟩
        · rw [hown _ (fun _ => ⟨j, hj0, rfl⟩) k hk]; exact g1 k hk
        · rw [hown _ (fun _ => ⟨j, hj0, rfl⟩) k (by omega),
            hown _ (fun _ => ⟨j, hj0, rfl⟩) (k + 1) hk]; exact g2 k hk
      · have hcp : ∀ k < c.ng, q' (c.cen (c.bno i j) k) = q (c.cen (c.bno 0 j) k) := fun k hk =>
          h2 hu _ (c.shared_mk hu hs hi hj hk (Or.inl rfl))
        refine ⟨fun k hk => ?_, fun k hk => ?_⟩
        · rw [hcp k hk]; exact g1 k hk
        · rw [hcp k (by omega), hcp (k + 1) hk]; exact g2 k hk
    · obtain ⟨g1, g2⟩ := ho hord b hb fun h => absurd h hu
      refine ⟨fun k hk => ?_, fun k hk => ?_⟩
      · rw [hown _ (fun h => absurd h hu) k hk]; exact g1 k hk
      · rw [hown _ (fun h => absurd h hu) k (by omega), hown _ (fun h => absurd h hu) (k + 1) hk]
        exact g2 k hk

/-! ## Initial draw -/

theorem drawVar_ok (d : LineDraw) (mem : ℕ → ℝ) (n : ℕ)
    (hr : ∀ i < n, (c.rng i).1 ≤ (c.rng i).2) :
    ∃ pm, c.drawVar d n mem = .ok pm ∧ ∀ i < n, (c.rng i).1 ≤ pm i ∧ pm i ≤ (c.rng i).2 := by
  induction n with
  | zero => exact ⟨mem, rfl, by simp⟩
  | succ n ih =>
    obtain ⟨pm, h1, h2⟩ := ih fun i hi => hr i (by omega)
    obtain ⟨x, hx, hx1, hx2⟩ := dnestWrap_le (d.z n * ((c.rng n).2 - (c.rng n).1)) _ _
      (hr n (by omega))
    refine ⟨Function.update pm n x, by simp [drawVar, h1, hx], fun i hi => ?_⟩
    by_cases e : i = n
    · subst e; simp [hx1, hx2]
    · rw [Function.update_of_ne e]; exact h2 i (by omega)

theorem sortBlock_spec (pm : ℕ → ℝ) (b : ℕ) (lo hi : ℝ)
    (hr : ∀ k < c.ng, lo ≤ pm (c.cen b k) ∧ pm (c.cen b k) ≤ hi) :
    (∀ a, (∀ k < c.ng, a ≠ c.cen b k) → c.sortBlock pm (c.blk * b) a = pm a) ∧
    (∀ k < c.ng, lo ≤ c.sortBlock pm (c.blk * b) (c.cen b k) ∧
      c.sortBlock pm (c.blk * b) (c.cen b k) ≤ hi) ∧
    ∀ k, k + 1 < c.ng → c.sortBlock pm (c.blk * b) (c.cen b k) ≤
      c.sortBlock pm (c.blk * b) (c.cen b (k + 1)) := by
  have hcen : ∀ j, c.numVar + c.blk * b + 1 + j * 3 + 1 = c.cen b j := by
    intro j; unfold cen; omega
  unfold sortBlock
  simp only [hcen]
  generalize hl : msortC micaCmp ((List.range c.ng).map fun j => pm (c.cen b j)) = l
  have hperm : l.Perm ((List.range c.ng).map fun j => pm (c.cen b j)) := by
    rw [← hl]; exact msortC_perm _ _
  have hlen : l.length = c.ng := by rw [hperm.length_eq]; simp
  have hsort : l.Pairwise (· ≤ ·) := by rw [← hl]; exact micaCmp_sorted _
  obtain ⟨h1, h2⟩ := foldl_update_range (c.cen b) (fun j => l.getD j 0) c.ng pm
    fun i hi j hj h => (c.cen_inj hi hj h).2
  refine ⟨h1, fun k hk => ?_, fun k hk => ?_⟩
  · rw [h2 k hk, List.getD_eq_getElem _ _ (by omega)]
    have hm : l[k] ∈ (List.range c.ng).map fun j => pm (c.cen b j) :=
      hperm.mem_iff.1 (List.getElem_mem _)
    simp only [List.mem_map, List.mem_range] at hm
    obtain ⟨j, hj, e⟩ := hm
    rw [← e]; exact hr j hj
  · rw [h2 k (by omega), h2 (k + 1) hk, List.getD_eq_getElem _ _ (by omega),
      List.getD_eq_getElem _ _ (by omega)]
    exact List.pairwise_iff_getElem.1 hsort k (k + 1) _ _ (by omega)

theorem sortLoop_spec (pm : ℕ → ℝ) (n : ℕ) (lo hi : ℝ)
    (hr : ∀ b < n, ∀ k < c.ng, lo ≤ pm (c.cen b k) ∧ pm (c.cen b k) ≤ hi) :
    let pm' := (List.range n).foldl (fun pm b => c.sortBlock pm (c.blk * b)) pm
    (∀ a, (∀ b < n, ∀ k < c.ng, a ≠ c.cen b k) → pm' a = pm a) ∧
    ∀ b < n, (∀ k < c.ng, lo ≤ pm' (c.cen b k) ∧ pm' (c.cen b k) ≤ hi) ∧
      ∀ k, k + 1 < c.ng → pm' (c.cen b k) ≤ pm' (c.cen b (k + 1)) := by
  induction n with
  | zero => simp
  | succ n ih =>
    obtain ⟨h1, h2⟩ := ih fun b hb => hr b (by omega)
    intro pm'
    have hpm' : pm' = c.sortBlock
        ((List.range n).foldl (fun pm b => c.sortBlock pm (c.blk * b)) pm) (c.blk * n) := by
      simp only [pm', List.range_succ, List.foldl_append, List.foldl_cons, List.foldl_nil]
    generalize (List.range n).foldl (fun pm b => c.sortBlock pm (c.blk * b)) pm = p at *
    have hp : ∀ k < c.ng, p (c.cen n k) = pm (c.cen n k) := fun k hk =>
      h1 _ fun b hb k' hk' e => by have := c.cen_inj hk hk' e; omega
    obtain ⟨g1, g2, g3⟩ := c.sortBlock_spec p n lo hi
      (fun k hk => by rw [hp k hk]; exact hr n (by omega) k hk)
    rw [hpm']
    refine ⟨fun a ha => ?_, fun b hb => ?_⟩
    · rw [g1 a (ha n (by omega))]
      exact h1 a fun b hb => ha b (by omega)
    · by_cases e : b = n
      · subst e; exact ⟨g2, g3⟩
      · have ho : ∀ k < c.ng, c.sortBlock p (c.blk * n) (c.cen b k) = p (c.cen b k) := fun k hk =>
          g1 _ fun k' hk' h => e (c.cen_inj hk hk' h).1
        obtain ⟨u1, u2⟩ := h2 b (by omega)
        refine ⟨fun k hk => ?_, fun k hk => ?_⟩
        · rw [ho k hk]; exact u1 k hk
        · rw [ho k (by omega), ho (k + 1) hk]; exact u2 k hk

/-- Random numbers as the generator delivers them. -/
def DrawOk (d : LineDraw) : Prop := ∀ i, 0 ≤ d.u i ∧ d.u i ≤ 1

theorem fromPrior_inv (d : LineDraw) (mem : ℕ → ℝ) (hd : DrawOk d) (hr : c.RangesOk)
    (hs : c.SharedOk) (hpos : c.posivity = false) :
    ∃ pm, c.fromPrior d mem = .ok pm ∧ c.Inv pm := by
  have hnv : c.numVar ≤ c.numParams := by unfold numParams; omega
  obtain ⟨p0, h0, h0r⟩ := c.drawVar_ok d mem c.numVar fun i hi => hr i (by omega)
  have h1r : ∀ i < c.numParams, (c.rng i).1 ≤ c.drawLine d p0 i ∧
      c.drawLine d p0 i ≤ (c.rng i).2 := by
    intro i hi
    unfold drawLine
    split
    · have := hr i hi
      have hu := hd i
      constructor
      · have := mul_nonneg hu.1 (sub_nonneg.2 this); linarith
      · have := mul_le_mul_of_nonneg_right hu.2 (sub_nonneg.2 this); linarith
    · rename_i hn
      exact h0r i (by omega)
  generalize hp1 : c.drawLine d p0 = p1 at *
  -- the sort
  have h2 : (∀ i < c.numParams, (c.rng i).1 ≤ c.sortAll p1 i ∧ c.sortAll p1 i ≤ (c.rng i).2) ∧
      (c.ordered → ∀ b < c.nblocks,
        (∀ k < c.ng, c.lagRange.1 ≤ c.sortAll p1 (c.cen b k) ∧
          c.sortAll p1 (c.cen b k) ≤ c.lagRange.2) ∧
        ∀ k, k + 1 < c.ng → c.sortAll p1 (c.cen b k) ≤ c.sortAll p1 (c.cen b (k + 1))) := by
    unfold sortAll
    by_cases ho : c.ordered
    · simp only [ho, if_true, numLine_div]
      have hin : ∀ b < c.nblocks, ∀ k < c.ng, c.lagRange.1 ≤ p1 (c.cen b k) ∧
          p1 (c.cen b k) ≤ c.lagRange.2 := by
        intro b hb k hk
        have h := h1r _ (c.cen_lt hb hk)
        have e : c.rng (c.cen b k) = c.lagRange := by
          unfold cen; rw [c.rng_lag b k hb hk, c.ordered_window ho]
        rwa [e] at h
      obtain ⟨g1, g2⟩ := c.sortLoop_spec p1 c.nblocks _ _ hin
      refine ⟨fun i hi => ?_, fun _ => g2⟩
      by_cases hc : ∃ b < c.nblocks, ∃ k < c.ng, i = c.cen b k
      · obtain ⟨b, hb, k, hk, rfl⟩ := hc
        have e : c.rng (c.cen b k) = c.lagRange := by
          unfold cen; rw [c.rng_lag b k hb hk, c.ordered_window ho]
        rw [e]; exact (g2 b hb).1 k hk
      · push Not at hc
        rw [g1 i hc]; exact h1r i hi
    · simp only [ho]
      exact ⟨h1r, fun h => absurd h (by simp)⟩
  have hposA : c.posAll d (c.sortAll p1) = c.sortAll p1 := by simp [posAll, hpos]
  have hfp : c.fromPrior d mem = c.share (c.putFixed (c.sortAll p1)) := by
    simp only [fromPrior, h0, Res.ok_bind, hp1, hposA]
  generalize c.sortAll p1 = p2 at *
  rw [hfp]
  refine c.inv_of_share hs _ ?_ ?_ ?_
  · intro i hi hn
    simp only [putFixed, hn]; exact h2.1 i hi
  · intro i v hi hv _
    simp only [putFixed, hv]
  · intro ho b hb hown
    obtain ⟨g1, g2⟩ := h2.2 ho b hb
    have hfree : ∀ k < c.ng, c.putFixed p2 (c.cen b k) = p2 (c.cen b k) := by
      intro k hk
      have : c.fix (c.cen b k) = none := by
        by_contra hne
        obtain ⟨hu, s, hsh⟩ := c.fix_cen_ordered ho hk hne
        obtain ⟨j, hj, rfl⟩ := hown hu
        obtain ⟨i', j', k', t', hi', hj', hj0', hk', ht', h1', h2'⟩ := c.shared_spec hu hs hsh
        unfold cen at h1'
        have := block_addr_inj (B := c.blk) (b := c.bno 0 j) (b' := c.bno i' j')
          (q := 1 + 3 * k + 1) (q' := 1 + 3 * k' + t') (by unfold blk; omega)
          (by unfold blk; omega) (by omega)
        have := (c.bno_inj hj hj' this.1).2 (by omega)
        omega
      simp only [putFixed, this]
    refine ⟨fun k hk => ?_, fun k hk => ?_⟩
    · rw [hfree k hk]; exact g1 k hk
    · rw [hfree k (by omega), hfree (k + 1) hk]; exact g2 k hk

/-! ## Moves -/

theorem pick_free {l : List (Fin c.numParams)} {w : Fin c.numParams} (h : c.pick l = .ok w) :
    c.fix w = none := by
  induction l with
  | nil => simp [pick] at h
  | cons a l ih =>
    unfold pick at h
    split at h
    · exact ih h
    · rename_i hn
      simp only [Res.ok.injEq] at h; subst h
      simpa using hn

theorem pick_not_exit (l : List (Fin c.numParams)) : c.pick l ≠ .exit ∧ c.pick l ≠ .ub := by
  induction l with
  | nil => simp [pick]
  | cons a l ih => unfold pick; split <;> simp [ih]

/-- The bounds a move is folded into are non-empty and inside the prior range; if a lag of the
ordered prior moves they are the neighbours. -/
theorem bounds_ok {pm : ℕ → ℝ} (hi : c.Inv pm) (hr : c.RangesOk) (w : ℕ) (hw : w < c.numParams) :
    (c.bounds pm w).1 ≤ (c.bounds pm w).2 ∧ (c.rng w).1 ≤ (c.bounds pm w).1 ∧
      (c.bounds pm w).2 ≤ (c.rng w).2 ∧
    (c.ordered → ∀ b < c.nblocks, ∀ k < c.ng, w = c.cen b k →
      (0 < k → pm (c.cen b (k - 1)) ≤ (c.bounds pm w).1) ∧
      (k + 1 < c.ng → (c.bounds pm w).2 ≤ pm (c.cen b (k + 1)))) := by
  by_cases ho : c.ordered = true
  swap
  · have : c.bounds pm w = c.rng w := by simp [bounds, ho]
    rw [this]; exact ⟨hr w hw, le_rfl, le_rfl, fun h => absurd h ho⟩
  have hng : 1 < c.ng := by unfold ordered at ho; simp at ho; exact ho.2
  by_cases hv : c.numVar ≤ w
  swap
  · have : c.bounds pm w = c.rng w := by simp [bounds, hv]
    rw [this]; refine ⟨hr w hw, le_rfl, le_rfl, fun _ b _ k _ e => ?_⟩
    unfold cen at e; omega
  have hb : c.bounds pm w = c.orderedBounds pm w := by simp [bounds, hv, ho]
  rw [hb]
  obtain ⟨b, q, hbn, hq, rfl⟩ := c.addr_split hv hw
  rcases c.offset_cases hq with rfl | ⟨k, t, hk, ht, rfl⟩
  · have hrole := c.role_err b
    have : c.orderedBounds pm (c.blk * b + c.numVar + 0) = c.rng (c.blk * b + c.numVar + 0) := by
      unfold orderedBounds
      rw [if_neg]
      rw [Nat.add_zero, hrole]; omega
    rw [this]
    refine ⟨hr _ hw, le_rfl, le_rfl, fun _ b' _ k _ e => ?_⟩
    unfold cen at e
    have := block_addr_inj (B := c.blk) (b := b) (b' := b') (q := 0)
      (q' := 1 + 3 * k + 1) (c.blk_pos) (by unfold blk; omega) (by omega)
    omega
  · obtain ⟨hrole, hcomp⟩ := c.role_comp b k t hk ht
    by_cases ht1 : t = 1
    · subst ht1
      obtain ⟨g1, g2⟩ := hi.order ho b hbn
      have hrng : c.rng (c.blk * b + c.numVar + (1 + 3 * k + 1)) = c.lagRange := by
        rw [c.rng_lag b k hbn hk, c.ordered_window ho]
      have hp : c.blk * b + c.numVar + (1 + 3 * k + 1) + 3 = c.cen b (k + 1) := by
        unfold cen; omega
      have hm : 0 < k → c.blk * b + c.numVar + (1 + 3 * k + 1) - 3 = c.cen b (k - 1) := by
        intro h; unfold cen; omega
      have hinj : ∀ b' < c.nblocks, ∀ k' < c.ng,
          c.blk * b + c.numVar + (1 + 3 * k + 1) = c.cen b' k' → b' = b ∧ k' = k := by
        intro b' _ k' hk' e
        have := c.cen_inj (b := b) (b' := b') hk hk' e
        exact ⟨this.1.symm, this.2.symm⟩
      unfold orderedBounds
      rw [if_pos (by rw [hrole]; rfl), hrng, hcomp, hp]
      by_cases k0 : k = 0
      · subst k0
        rw [if_pos (show ((0 : ℕ) : Int) = 0 from rfl)]
        refine ⟨(g1 1 hng).1, le_rfl, (g1 1 hng).2, fun _ b' hb' k' hk' e => ?_⟩
        obtain ⟨rfl, rfl⟩ := hinj b' hb' k' hk' e
        exact ⟨fun h => absurd h (by omega), fun _ => le_rfl⟩
      · rw [if_neg (by exact_mod_cast k0), hm (by omega)]
        have gm := g1 (k - 1) (by omega)
        have gk := g2 (k - 1) (by omega)
        rw [Nat.sub_add_cancel (by omega)] at gk
        by_cases kl : k + 1 < c.ng
        · rw [if_pos (by omega)]
          refine ⟨le_trans gk (g2 k kl), gm.1, (g1 (k + 1) kl).2, fun _ b' hb' k' hk' e => ?_⟩
          obtain ⟨rfl, rfl⟩ := hinj b' hb' k' hk' e
          exact ⟨fun _ => le_rfl, fun _ => le_rfl⟩
        · rw [if_neg (by omega)]
          refine ⟨gm.2, gm.1, le_rfl, fun _ b' hb' k' hk' e => ?_⟩
          obtain ⟨rfl, rfl⟩ := hinj b' hb' k' hk' e
          exact ⟨fun _ => le_rfl, fun h => absurd h kl⟩
    · have : c.orderedBounds pm (c.blk * b + c.numVar + (1 + 3 * k + t)) =
          c.rng (c.blk * b + c.numVar + (1 + 3 * k + t)) := by
        unfold orderedBounds
        rw [if_neg]
        rw [hrole]; exact_mod_cast ht1
      rw [this]
      refine ⟨hr _ hw, le_rfl, le_rfl, fun _ b' _ k' hk' e => ?_⟩
      unfold cen at e
      have := block_addr_inj (B := c.blk) (b := b) (b' := b') (q := 1 + 3 * k + t)
        (q' := 1 + 3 * k' + 1) (by unfold blk; omega) (by unfold blk; omega) (by omega)
      omega

/-- The moved vector before copying, and the copying. -/
theorem move_inv {pm : ℕ → ℝ} (hi : c.Inv pm) (hr : c.RangesOk) (hs : c.SharedOk)
    (w : Fin c.numParams) (hw : c.fix w = none) (x : ℝ) (hx1 : (c.bounds pm w).1 ≤ x)
    (hx2 : x ≤ (c.bounds pm w).2) :
    ∃ q, c.share (Function.update pm w x) = .ok q ∧ c.Inv q := by
  obtain ⟨hb1, hb2, hb3, hb4⟩ := c.bounds_ok hi hr w w.2
  refine c.inv_of_share hs _ ?_ ?_ ?_
  · intro i hil hn
    by_cases e : i = w
    · subst e; rw [Function.update_self]; exact ⟨le_trans hb2 hx1, le_trans hx2 hb3⟩
    · rw [Function.update_of_ne e]; exact hi.range i hil hn
  · intro i v hil hv hns
    have e : i ≠ w := by rintro rfl; rw [hw] at hv; exact absurd hv (by simp)
    rw [Function.update_of_ne e]; exact hi.fixed i v hil hv hns
  · intro ho b hb _
    obtain ⟨g1, g2⟩ := hi.order ho b hb
    refine ⟨fun k hk => ?_, fun k hk => ?_⟩
    · by_cases e : c.cen b k = w
      · rw [e, Function.update_self]
        have hrng : c.rng w = c.lagRange := by
          rw [← e]; unfold cen; rw [c.rng_lag b k hb hk, c.ordered_window ho]
        rw [← hrng]; exact ⟨le_trans hb2 hx1, le_trans hx2 hb3⟩
      · rw [Function.update_of_ne e]; exact g1 k hk
    · by_cases e : c.cen b k = w
      · have e' : c.cen b (k + 1) ≠ w := by
          rw [← e]; intro h; have := c.cen_inj hk (by omega) h; omega
        rw [e, Function.update_self, Function.update_of_ne e']
        exact le_trans hx2 ((hb4 ho b hb k (by omega) e.symm).2 hk)
      · rw [Function.update_of_ne e]
        by_cases e' : c.cen b (k + 1) = w
        · rw [e', Function.update_self]
          have := (hb4 ho b hb (k + 1) hk e'.symm).1 (by omega)
          exact le_trans this hx1
        · rw [Function.update_of_ne e']; exact g2 k hk

theorem perturb_inv {pm : ℕ → ℝ} (hi : c.Inv pm) (hr : c.RangesOk) (hs : c.SharedOk)
    (s : ConStep c.numParams) {r : (ℕ → ℝ) × ℝ} (h : c.perturb s pm = .ok r) : c.Inv r.1 := by
  unfold perturb at h
  obtain ⟨w, hw, h⟩ := Res.bind_eq_ok.1 h
  obtain ⟨x, hx, h⟩ := Res.bind_eq_ok.1 h
  obtain ⟨l, hl, h⟩ := Res.bind_eq_ok.1 h
  obtain ⟨q, hq, h⟩ := Res.bind_eq_ok.1 h
  simp only [Res.pure_eq, Res.ok.injEq] at h
  subst h
  obtain ⟨hb1, -⟩ := c.bounds_ok hi hr w w.2
  obtain ⟨y, hy, h1, h2⟩ := dnestWrap_le
    (pm w + s.h * if c.ordered = true then c.stepWidth 0 10 s w else c.stepWidth 5 15 s w) _ _ hb1
  rw [hy] at hx
  simp only [Res.ok.injEq] at hx; subst hx
  obtain ⟨q', hq', hinv⟩ := c.move_inv hi hr hs w (c.pick_free hw) y h1 h2
  rw [hq'] at hq
  simp only [Res.ok.injEq] at hq; subst hq
  exact hinv

theorem run_inv (ss : List (ConStep c.numParams × Bool)) {pm q : ℕ → ℝ} (hi : c.Inv pm)
    (hr : c.RangesOk) (hs : c.SharedOk) (h : c.run ss pm = .ok q) : c.Inv q := by
  induction ss generalizing pm with
  | nil => simp only [run, Res.ok.injEq] at h; subst h; exact hi
  | cons a ss ih =>
    obtain ⟨s, keep⟩ := a
    unfold run at h
    obtain ⟨r, hr', h⟩ := Res.bind_eq_ok.1 h
    have := c.perturb_inv hi hr hs s hr'
    refine ih (pm := if keep then r.1 else pm) ?_ h
    split
    · exact this
    · exact hi

theorem chain_inv (d : LineDraw) (mem : ℕ → ℝ) (ss : List (ConStep c.numParams × Bool))
    {pm : ℕ → ℝ} (hd : DrawOk d) (hr : c.RangesOk) (hs : c.SharedOk) (hp : c.posivity = false)
    (h : c.chain d mem ss = .ok pm) : c.Inv pm := by
  unfold chain at h
  obtain ⟨p, h0, h⟩ := Res.bind_eq_ok.1 h
  obtain ⟨p', h0', hi⟩ := c.fromPrior_inv d mem hd hr hs hp
  rw [h0] at h0'
  simp only [Res.ok.injEq] at h0'; subst h0'
  exact c.run_inv ss hi hr hs h

/-! ## The program does not stop -/

theorem getIdxSetLoop_ok (w n : ℕ) (hn : n ≤ c.nl.length)
    (hl : ∀ i < c.nl.length, 0 < c.nl.getD i 0) :
    ∃ i, c.getIdxSetLoop w n = .ok i ∧ (i = 0 ∨ c.idxLine i 0 ≤ w) ∧ (0 < n → i < n) ∧
      ∀ i', i < i' → i' < n → w < c.idxLine i' 0 := by
  induction n with
  | zero => exact ⟨0, rfl, Or.inl rfl, by omega, by omega⟩
  | succ n ih =>
    have hpos := hl n (by omega)
    have hget : (c.idxRows.getD n [])[0]? = some (c.idxLine n 0) := by
      unfold idxLine
      rw [c.idxRows_get n (by omega)]
      generalize c.nl.getD n 0 = m at hpos
      obtain ⟨m, rfl⟩ := Nat.exists_eq_succ_of_ne_zero hpos.ne'
      simp
    unfold getIdxSetLoop
    rw [hget]
    simp only
    split
    · rename_i h
      exact ⟨n, rfl, Or.inr h, by omega, by omega⟩
    · rename_i h
      obtain ⟨i, h1, h2, h3, h4⟩ := ih (by omega)
      refine ⟨i, h1, h2, fun _ => ?_, fun i' hi' hn' => ?_⟩
      · rcases Nat.eq_zero_or_pos n with rfl | hn0
        · simp [getIdxSetLoop] at h1; omega
        · have := h3 hn0; omega
      · by_cases e : i' = n
        · subst e; omega
        · exact h4 i' hi' (by omega)

theorem perturb_total {pm : ℕ → ℝ} (hi : c.Inv pm) (hr : c.RangesOk) (hs : c.SharedOk)
    (hg : c.gap → ∀ i < c.nl.length, 0 < c.nl.getD i 0) (s : ConStep c.numParams) :
    c.perturb s pm = .hang ∨ ∃ r, c.perturb s pm = .ok r := by
  unfold perturb
  rcases hw : c.pick s.cands with w | _ | _ | _
  · simp only [Res.ok_bind]
    obtain ⟨hb1, -⟩ := c.bounds_ok hi hr w w.2
    obtain ⟨y, hy, h1, h2⟩ := dnestWrap_le
      (pm w + s.h * if c.ordered = true then c.stepWidth 0 10 s w else c.stepWidth 5 15 s w) _ _
      hb1
    obtain ⟨q', hq', -⟩ := c.move_inv hi hr hs w (c.pick_free hw) y h1 h2
    have hl : ∃ l, c.moveLogH pm (Function.update pm (↑w) y) w = .ok l := by
      unfold moveLogH
      split
      · exact ⟨_, rfl⟩
      · by_cases hgap : c.gap
        · obtain ⟨i, h, -⟩ := c.getIdxSetLoop_ok w c.nl.length le_rfl (hg hgap)
          simp only [hgap, if_true, checkGap, getIdxSet, h, Res.ok_bind]
          exact ⟨_, rfl⟩
        · simp only [hgap]; exact ⟨_, rfl⟩
    obtain ⟨l, hl⟩ := hl
    right
    rw [hy, Res.ok_bind, hl, Res.ok_bind, hq']
    exact ⟨_, rfl⟩
  · exact absurd hw (c.pick_not_exit _).1
  · exact absurd hw (c.pick_not_exit _).2
  · left; rfl

theorem run_total (ss : List (ConStep c.numParams × Bool)) {pm : ℕ → ℝ} (hi : c.Inv pm)
    (hr : c.RangesOk) (hs : c.SharedOk)
    (hg : c.gap → ∀ i < c.nl.length, 0 < c.nl.getD i 0) :
    c.run ss pm = .hang ∨ ∃ q, c.run ss pm = .ok q := by
  induction ss generalizing pm with
  | nil => exact Or.inr ⟨pm, rfl⟩
  | cons a ss ih =>
    obtain ⟨s, keep⟩ := a
    unfold run
    rcases c.perturb_total hi hr hs hg s with h | ⟨r, h⟩
    · left; rw [h]; rfl
    · rw [h, Res.ok_bind]
      refine ih ?_
      split
      · exact c.perturb_inv hi hr hs s h
      · exact hi

theorem chain_total (d : LineDraw) (mem : ℕ → ℝ) (ss : List (ConStep c.numParams × Bool))
    (hd : DrawOk d) (hr : c.RangesOk) (hs : c.SharedOk) (hp : c.posivity = false)
    (hg : c.gap → ∀ i < c.nl.length, 0 < c.nl.getD i 0) :
    c.chain d mem ss = .hang ∨ ∃ q, c.chain d mem ss = .ok q := by
  unfold chain
  obtain ⟨p, h0, hi⟩ := c.fromPrior_inv d mem hd hr hs hp
  rw [h0, Res.ok_bind]
  exact c.run_total ss hi hr hs hg

end LineCfg
end Mica
