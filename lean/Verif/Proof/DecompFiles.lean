import Verif.Model.DecompFiles
import Verif.Proof.Misc
import Verif.Proof.Reorder
import Verif.Props.Decomp

/-! # Lemmas about the files of the reconstruction and of the decomposition -/

namespace Mica

open Matrix

/-! ### Accumulating -/

/-- Value and error at a node; an error that is not a number counts as zero. -/
noncomputable def nodeOf {q m : ℕ} (r : List ℝ → Recon q m) (p : Fin m) (x : List ℝ) : ℝ × ℝ :=
  ((r x).val p, ((r x).err p).getD 0)

theorem fmaxNan_getD {a : ℝ} (ha : 0 ≤ a) (b : Option ℝ) : fmaxNan a b = max a (b.getD 0) := by
  cases b with
  | none => simp [fmaxNan, ha]
  | some b => rfl

theorem sampleLoop_ok {q m : ℕ} {call : List ℝ → Res (Recon q m)} {r : List ℝ → Recon q m} (l : List (List ℝ))
    (hl : ∀ x ∈ l, call x = .ok (r x)) (a : Accs) (ha : ∀ p < m, 0 ≤ (a.node p).emax) :
    ∃ b, sampleLoop call l a = .ok b ∧ (∀ p : Fin m, b.node p = l.foldl (accStep (nodeOf r p)) (a.node p)) ∧
      ∀ c : Fin q, b.yq c = ((a.yq c).1 + (l.map fun x => (r x).coef c).sum,
        (a.yq c).2 + (l.map fun x => (r x).coef c * (r x).coef c).sum) := by
  induction l generalizing a with
  | nil => exact ⟨a, rfl, fun p => rfl, fun c => by simp⟩
  | cons x l ih =>
    have hx := hl x (by simp)
    have hn : ∀ p : Fin m, (accAdd a (r x)).node p = accStep (nodeOf r p) (a.node p) x := by
      intro p
      simp only [accAdd, p.2, dif_pos, accStep, nodeOf, Fin.eta]
      rw [fmaxNan_getD (ha p p.2)]
    have hy : ∀ c : Fin q, (accAdd a (r x)).yq c = ((a.yq c).1 + (r x).coef c, (a.yq c).2 + (r x).coef c * (r x).coef c) := by
      intro c
      simp only [accAdd, c.2, dif_pos, Fin.eta]
    obtain ⟨b, h1, h2, h3⟩ := ih (fun y hy => hl y (by simp [hy])) (accAdd a (r x)) (by
      intro p hp
      have := hn ⟨p, hp⟩
      simp only at this
      rw [this]
      exact le_max_of_le_left (ha p hp))
    refine ⟨b, ?_, fun p => ?_, fun c => ?_⟩
    · simp only [sampleLoop, hx]; exact h1
    · rw [h2, hn]; rfl
    · rw [h3, hy]; simp [add_assoc]

/-- The samples of task `i`. -/
def partOf (s : List (List ℝ)) (T i : ℕ) : List (List ℝ) :=
  if i = 0 then taskPart s T 0 ++ s.take (s.length % T) else taskPart s T i

theorem partOf_mem {s : List (List ℝ)} {T i : ℕ} {x : List ℝ} (h : x ∈ partOf s T i) : x ∈ s := by
  unfold partOf taskPart at h
  split at h
  · rcases List.mem_append.1 h with h | h
    · exact List.mem_of_mem_drop (List.mem_of_mem_drop (List.mem_of_mem_take h))
    · exact List.mem_of_mem_take h
  · exact List.mem_of_mem_drop (List.mem_of_mem_drop (List.mem_of_mem_take h))

theorem taskRun_ok {q m : ℕ} {call : List ℝ → Res (Recon q m)} {r : List ℝ → Recon q m} {s : List (List ℝ)} {np T i : ℕ}
    (hs : ∀ x ∈ s, x.length = np) (hc : ∀ x ∈ s, call x = .ok (r x)) (hi : i < T) (mem : Accs) :
    ∃ b, taskRun call s.flatten s.length T np i mem = .ok b ∧
      (∀ p : Fin m, b.node p = accTask (nodeOf r p) (partOf s T i)) ∧
      ∀ c : Fin q, b.yq c = (((partOf s T i).map fun x => (r x).coef c).sum,
        ((partOf s T i).map fun x => (r x).coef c * (r x).coef c).sum) := by
  obtain ⟨b, h1, h2, h3⟩ := sampleLoop_ok (r := r) (partOf s T i) (fun x hx => hc x (partOf_mem hx)) (accReset m q mem)
    (by intro p hp; simp [accReset, hp])
  refine ⟨b, ?_, fun p => ?_, fun c => ?_⟩
  · rw [taskRun, taskBuffer_eq hs hi, Res.ok_bind, taskSamples_eq hs hi]
    exact h1
  · rw [h2]; simp [accReset, accTask]
  · rw [h3]; simp [accReset]

theorem foldl_merge_node (l : List Accs) (a : Accs) (p : ℕ) :
    (l.foldl accsMerge a).node p = l.foldl (fun r b => accMerge r (b.node p)) (a.node p) := by
  induction l generalizing a with
  | nil => rfl
  | cons b l ih => simp only [List.foldl_cons, ih]; rfl

theorem tasksRun_ok {q m : ℕ} {call : List ℝ → Res (Recon q m)} {r : List ℝ → Recon q m} {s : List (List ℝ)} {np T : ℕ}
    (hs : ∀ x ∈ s, x.length = np) (hc : ∀ x ∈ s, call x = .ok (r x)) (mem : ℕ → Accs) (i : ℕ) (hi : i < T) :
    ∃ l a, tasksRun call s.flatten s.length T np mem (i + 1) = .ok l ∧ accsReduce l = .ok a ∧
      (∀ p : Fin m, a.node p = accTask (nodeOf r p) ((List.range (i + 1)).flatMap (partOf s T))) ∧
      ∀ c : Fin q, a.yq c = ((((List.range (i + 1)).flatMap (partOf s T)).map fun x => (r x).coef c).sum,
        (((List.range (i + 1)).flatMap (partOf s T)).map fun x => (r x).coef c * (r x).coef c).sum) := by
  induction i with
  | zero =>
    obtain ⟨b, h1, h2, h3⟩ := taskRun_ok hs hc hi (mem 0)
    refine ⟨[b], b, ?_, rfl, fun p => ?_, fun c => ?_⟩
    · simp only [tasksRun, Res.ok_bind, h1, List.nil_append]
    · rw [h2]; simp
    · rw [h3]; simp
  | succ i ih =>
    obtain ⟨l, a, h1, h2, h3, h4⟩ := ih (by omega)
    obtain ⟨b, g1, g2, g3⟩ := taskRun_ok hs hc hi (mem (i + 1))
    have hred : accsReduce (l ++ [b]) = .ok (accsMerge a b) := by
      cases l with
      | nil => exact absurd h2 (by simp [accsReduce])
      | cons a0 l =>
        simp only [accsReduce, Res.ok.injEq] at h2
        simp only [List.cons_append, accsReduce, List.foldl_append, h2, List.foldl_cons, List.foldl_nil]
    refine ⟨l ++ [b], accsMerge a b, ?_, hred, fun p => ?_, fun c => ?_⟩
    · rw [tasksRun, h1, Res.ok_bind, g1, Res.ok_bind]
    · simp only [accsMerge]
      rw [h3, g2, accTask_append, List.range_succ (n := i + 1), List.flatMap_append, List.flatMap_singleton]
    · simp only [accsMerge]
      rw [h4, g3, List.range_succ (n := i + 1), List.flatMap_append, List.flatMap_singleton]
      simp

theorem parts_perm {s : List (List ℝ)} {T : ℕ} (hT : 0 < T) : ((List.range T).flatMap (partOf s T)).Perm s :=
  allParts_perm hT

/-- All tasks together: the accumulators of the root do not depend on the tasks. -/
theorem driver_ok {q m : ℕ} {call : List ℝ → Res (Recon q m)} {r : List ℝ → Recon q m} {s : List (List ℝ)} {np T : ℕ}
    (hs : ∀ x ∈ s, x.length = np) (hc : ∀ x ∈ s, call x = .ok (r x)) (mem : ℕ → Accs) (hT : 0 < T) :
    ∃ l a, tasksRun call s.flatten s.length T np mem T = .ok l ∧ accsReduce l = .ok a ∧
      (∀ p : Fin m, a.node p = accTask (nodeOf r p) s) ∧
      ∀ c : Fin q, a.yq c = ((s.map fun x => (r x).coef c).sum, (s.map fun x => (r x).coef c * (r x).coef c).sum) := by
  obtain ⟨l, a, h1, h2, h3, h4⟩ := tasksRun_ok (T := T) hs hc mem (T - 1) (by omega)
  rw [Nat.sub_add_cancel hT] at h1 h3 h4
  refine ⟨l, a, h1, h2, fun p => ?_, fun c => ?_⟩
  · rw [h3]; exact accTask_perm _ (parts_perm hT)
  · rw [h4, ((parts_perm hT).map _).sum_eq, ((parts_perm hT).map _).sum_eq]

theorem accTask_best (g : List ℝ → ℝ × ℝ) (s : List (List ℝ)) : (accTask g s).best = (s.map fun x => (g x).1).sum := by
  rw [accTask, accFold]; simp

theorem foldl_max_mono {f g : List ℝ → ℝ} (s : List (List ℝ)) (h : ∀ x ∈ s, f x ≤ g x) {a b : ℝ} (hab : a ≤ b) :
    s.foldl (fun m x => max m (f x)) a ≤ s.foldl (fun m x => max m (g x)) b := by
  induction s generalizing a b with
  | nil => exact hab
  | cons x s ih =>
    exact ih (fun y hy => h y (by simp [hy])) (max_le_max hab (h x (by simp)))

theorem accOut_mono {f g : List ℝ → ℝ × ℝ} (s : List (List ℝ)) (h : ∀ x ∈ s, (f x).1 = (g x).1 ∧ (f x).2 ≤ (g x).2) (n : ℕ) :
    (accOut n (accTask f s)).1 = (accOut n (accTask g s)).1 ∧ (accOut n (accTask f s)).2 ≤ (accOut n (accTask g s)).2 := by
  have h1 : s.map (fun x => (f x).1) = s.map fun x => (g x).1 := List.map_congr_left fun x hx => (h x hx).1
  have h2 : s.map (fun x => (f x).1 * (f x).1) = s.map fun x => (g x).1 * (g x).1 :=
    List.map_congr_left fun x hx => by rw [(h x hx).1]
  simp only [accOut, accTask, accFold, h1, h2]
  exact ⟨trivial, max_le_max le_rfl (foldl_max_mono s (fun x hx => (h x hx).2) le_rfl)⟩

/-! ### Rows -/

/-- A table of `a` light curves with `b` rows each. -/
def table (a b : ℕ) (f : ℕ → ℕ → Row) : List (List Row) := (List.range a).map fun s => (List.range b).map (f s)

theorem fileRows_replicate (scale : ℕ → ℝ) (out : ℕ → ℝ × ℝ) (a : LC) (k s0 np : ℕ) :
    fileRows scale out (List.replicate k a) s0 np = table k a.n fun s j =>
      (a.t j, (out (np + s * a.n + j)).1 * scale (s0 + s), (out (np + s * a.n + j)).2 * scale (s0 + s)) := by
  induction k generalizing s0 np with
  | zero => rfl
  | succ k ih =>
    rw [List.replicate_succ, fileRows, ih, table, table, List.range_succ_eq_map, List.map_cons, List.map_map]
    congr 1
    · simp
    · refine List.map_congr_left fun s _ => List.map_congr_left fun j _ => ?_
      simp only [Nat.succ_eq_add_one]
      rw [show np + (s + 1) * a.n + j = np + a.n + s * a.n + j by ring, show s0 + (s + 1) = s0 + 1 + s by ring]

theorem nodeSet_series {w : ℝ × ℝ} {nd : ℕ} {d R : DSet} (h : nodeSet w nd d = .ok R) :
    ∃ a, nodeCurve w (numNodes d.con.n nd) = .ok a ∧ R.series = List.replicate (1 + d.line.length) a ∧
      R.line.length = d.line.length := by
  unfold nodeSet at h
  obtain ⟨a, h1, h2⟩ := Res.bind_eq_ok.1 h
  refine ⟨a, h1, ?_, ?_⟩
  · simp only [Res.ok.injEq] at h2
    subst h2
    simp only [DSet.series, List.map_const', Nat.add_comm 1, List.replicate_succ]
  · simp only [Res.ok.injEq] at h2
    subst h2; simp

theorem totalN_replicate (k : ℕ) (a : LC) : totalN (List.replicate k a) = k * a.n := by
  induction k with
  | zero => simp [totalN]
  | succ k ih => rw [List.replicate_succ, totalN, ih]; ring

theorem locate_replicate (k : ℕ) (a : LC) (s j : ℕ) (hs : s < k) (hj : j < a.n) :
    locate (List.replicate k a) (s * a.n + j) = (s, j) := by
  induction k generalizing s with
  | zero => omega
  | succ k ih =>
    rw [List.replicate_succ, locate]
    cases s with
    | zero => simp [hj]
    | succ s =>
      rw [if_neg (by rw [Nat.add_mul]; omega), show (s + 1) * a.n + j - a.n = s * a.n + j by rw [Nat.add_mul]; omega,
        ih s (by omega)]

theorem pt_replicate {R : DSet} {k : ℕ} {a : LC} (h : R.series = List.replicate k a) {s j : ℕ} (hs : s < k) (hj : j < a.n) :
    R.pt (s * a.n + j) = (s, a.t j) := by
  unfold DSet.pt DSet.ser
  rw [h, locate_replicate k a s j hs hj]
  simp [hs]

/-! ### Trend -/

theorem trendAt_dot (nq J : ℕ) (coef : Fin (nq * (1 + J)) → ℝ) (g : ℕ → ℝ) (hg : ∀ c : Fin (nq * (1 + J)), g c = coef c)
    {s : ℕ} (hs : s < 1 + J) (t : ℝ) :
    trendAt nq _ (s, t) ⬝ᵥ coef = ∑ q ∈ Finset.range nq, g (s * nq + q) * t ^ q := by
  have h1 : trendAt nq (nq * (1 + J)) (s, t) ⬝ᵥ coef =
      ∑ c ∈ Finset.range (nq * (1 + J)), (if c / nq = s then t ^ (c % nq) else 0) * g c := by
    rw [Finset.sum_range]
    refine Finset.sum_congr rfl fun c _ => ?_
    rw [hg]; rfl
  rw [h1]
  symm
  refine Finset.sum_bij_ne_zero (fun q _ _ => s * nq + q) ?_ ?_ ?_ ?_
  · intro q hq _
    rw [Finset.mem_range] at hq ⊢
    calc s * nq + q < s * nq + nq := by omega
      _ = nq * (s + 1) := by ring
      _ ≤ nq * (1 + J) := Nat.mul_le_mul le_rfl (by omega)
  · intro a _ _ b _ _ hab
    exact Nat.add_left_cancel hab
  · intro c hc hne
    have hq : 0 < nq := by
      rcases Nat.eq_zero_or_pos nq with h | h
      · subst h; simp at hc
      · exact h
    have hcs : c / nq = s := by
      by_contra h
      rw [if_neg h, zero_mul] at hne
      exact hne rfl
    rw [if_pos hcs] at hne
    have e : s * nq + c % nq = c := by rw [← hcs, Nat.mul_comm]; exact Nat.div_add_mod c nq
    refine ⟨c % nq, Finset.mem_range.2 (Nat.mod_lt _ hq), ?_, e⟩
    rw [e, mul_comm]; exact hne
  · intro q hq _
    have hq := Finset.mem_range.1 hq
    have hp : 0 < nq := by omega
    rw [show (s * nq + q) / nq = s by rw [Nat.mul_comm, Nat.mul_add_div hp, Nat.div_eq_of_lt hq, add_zero],
      show (s * nq + q) % nq = q by rw [Nat.mul_comm, Nat.mul_add_mod, Nat.mod_eq_of_lt hq], if_pos rfl, mul_comm]

theorem flatMap_getD (F : ℕ → ℕ → ℝ × ℝ) {k nq s q : ℕ} (hs : s < k) (hq : q < nq) :
    ((List.range k).flatMap fun j => (List.range nq).map (F j)).getD (s * nq + q) (0, 0) = F s q := by
  induction k generalizing s F with
  | zero => omega
  | succ k ih =>
    rw [List.range_succ_eq_map, List.flatMap_cons, List.flatMap_map]
    cases s with
    | zero =>
      rw [List.getD_append _ _ _ _ (by simpa using hq)]
      simp [List.getD, hq]
    | succ s =>
      rw [List.getD_append_right _ _ _ _ (by simp; rw [Nat.add_mul]; omega)]
      have := ih (s := s) (fun j => F (j + 1)) (by omega)
      rw [List.length_map, List.length_range, show (s + 1) * nq + q - nq = s * nq + q by rw [Nat.add_mul]; omega]
      exact this

theorem trendRows_getD (scale : ℕ → ℝ) (out : ℕ → ℝ × ℝ) (nq nl : ℕ) {s q : ℕ} (hs : s < 1 + nl) (hq : q < nq) :
    (trendRows scale out nq nl).getD (s * nq + q) (0, 0) = ((out (s * nq + q)).1 * scale s, (out (s * nq + q)).2 * scale s) := by
  have e : trendRows scale out nq nl = (List.range (1 + nl)).flatMap fun j => (List.range nq).map fun k =>
      ((out (j * nq + k)).1 * scale j, (out (j * nq + k)).2 * scale j) := by
    rw [trendRows, Nat.add_comm 1 nl, List.range_succ_eq_map, List.flatMap_cons, List.flatMap_map]
    simp [Nat.add_comm]
  rw [e]
  exact flatMap_getD (fun j k => ((out (j * nq + k)).1 * scale j, (out (j * nq + k)).2 * scale j)) hs hq

/-! ### Errors -/

theorem cSqrt_getD_mono {a b sg : ℝ} (h : a ≤ b) (hs : 0 ≤ sg) :
    ((cSqrt a).map fun s => sg * s).getD 0 ≤ ((cSqrt b).map fun s => sg * s).getD 0 := by
  unfold cSqrt
  by_cases ha : a < 0
  · rw [if_pos ha]
    by_cases hb : b < 0
    · rw [if_pos hb]
    · rw [if_neg hb]; simp; positivity
  · rw [if_neg ha, if_neg (by linarith)]
    simp
    exact mul_le_mul_of_nonneg_left (Real.sqrt_le_sqrt h) hs

end Mica
