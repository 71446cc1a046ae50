import Verif.Model.Heap
import Mathlib.Data.Finset.Image
import Mathlib.Data.Finset.Union
import Mathlib.Data.List.Nodup
import Mathlib.Data.List.Basic
import Mathlib.Algebra.BigOperators.Group.Finset.Basic
import Mathlib.Tactic.Ring

/-! # Lemmas on sequences of allocations and releases -/

namespace Mica

/-- Every block is reached from a variable or from another existing block. -/
def Tree (L : Finset Ptr) : Prop := ∀ p ∈ L, p ≠ [] ∧ (p.tail = [] ∨ p.tail ∈ L)

theorem Tree.not_suffix {L : Finset Ptr} (hL : Tree L) {p : Ptr} (hp : p ≠ []) (hn : p ∉ L) :
    ∀ q ∈ L, ¬ p <:+ q := by
  intro q
  induction q with
  | nil => intro h; exact absurd rfl (hL _ h).1
  | cons x t ih =>
    intro h hs
    rcases List.suffix_cons_iff.1 hs with e | e
    · exact hn (e ▸ h)
    · rcases (hL _ h).2 with h0 | h0
      · simp only [List.tail_cons] at h0
        subst h0
        exact hp (List.suffix_nil.1 e)
      · exact ih h0 e

theorem Tree.suffix_eq {L : Finset Ptr} (hL : Tree L) {p : Ptr} (hp : p ≠ [])
    (hc : ∀ q ∈ L, q.tail ≠ p) : ∀ q ∈ L, p <:+ q → q = p := by
  intro q
  induction q with
  | nil => intro h; exact absurd rfl (hL _ h).1
  | cons x t ih =>
    intro h hs
    rcases List.suffix_cons_iff.1 hs with e | e
    · exact e.symm
    · rcases (hL _ h).2 with h0 | h0
      · simp only [List.tail_cons] at h0
        subst h0
        exact absurd (List.suffix_nil.1 e) hp
      · exact absurd (ih h0 e) (hc _ h)

theorem exec_append (P Q : List Cmd) (h : Heap) : exec (P ++ Q) h = exec P h >>= exec Q := by
  induction P generalizing h with
  | nil => rfl
  | cons c P ih =>
    simp only [List.cons_append, exec]
    cases c.step h <;> simp [ih]

/-- No static pointer has been assigned. -/
def Heap.Clean (h : Heap) : Prop := ∀ p ∈ h.assigned, (p.head?.elim false fun x => x.1.static) = false

/-- From memory with blocks `L` the steps succeed, leave the blocks `M` and lose `k`. -/
def Does (P : List Cmd) (L M : Finset Ptr) (k : Multiset Ptr) : Prop :=
  ∀ h : Heap, h.live = L → h.Clean → ∃ h', exec P h = .ok h' ∧ h'.live = M ∧ h'.lost = h.lost + k ∧ h'.Clean

theorem Does.nil (L : Finset Ptr) : Does [] L L 0 :=
  fun h hl hc => ⟨h, rfl, hl, by simp, hc⟩

theorem Does.append {P Q : List Cmd} {L M N : Finset Ptr} {k l : Multiset Ptr}
    (h1 : Does P L M k) (h2 : Does Q M N l) : Does (P ++ Q) L N (k + l) := by
  intro h hl hc
  obtain ⟨h', e, e1, e2, e3⟩ := h1 h hl hc
  obtain ⟨h'', f, f1, f2, f3⟩ := h2 h' e1 e3
  refine ⟨h'', ?_, f1, ?_, f3⟩
  · rw [exec_append, e]; exact f
  · rw [f2, e2, add_assoc]

/-- The pointer is not one of the static pointers. -/
def Ptr.plain (p : Ptr) : Prop := (p.head?.elim false fun x => x.1.static) = false

theorem Does.malloc {L : Finset Ptr} (hL : Tree L) {p : Ptr} (hp : p ≠ []) (hs : Ptr.plain p) (hn : p ∉ L)
    (ht : p.tail = [] ∨ p.tail ∈ L) : Does [.malloc p] L (insert p L) 0 ∧ Tree (insert p L) := by
  constructor
  · intro h hl hc
    subst hl
    have hns := hL.not_suffix hp hn
    refine ⟨⟨insert p h.live, h.lost, insert p h.assigned⟩, ?_, rfl, by simp, ?_⟩
    · have e1 : (h.live.filter fun q => ¬ p <:+ q) = h.live := Finset.filter_true_of_mem hns
      have e2 : (h.live.filter fun q => p <:+ q) = ∅ := Finset.filter_false_of_mem hns
      simp [exec, Cmd.step, ht, e1, e2]
    · intro q hq
      rcases Finset.mem_insert.1 hq with rfl | hq
      · exact hs
      · exact hc q hq
  · intro q hq
    rcases Finset.mem_insert.1 hq with rfl | hq
    · exact ⟨hp, ht.imp_right fun h => Finset.mem_insert_of_mem h⟩
    · exact ⟨(hL q hq).1, (hL q hq).2.imp_right fun h => Finset.mem_insert_of_mem h⟩

theorem Does.free {L : Finset Ptr} (hL : Tree L) {p : Ptr} (hn : p ∈ L) (hc : ∀ q ∈ L, q.tail ≠ p) :
    Does [.free p] L (L.erase p) 0 ∧ Tree (L.erase p) := by
  have hp := (hL p hn).1
  have hse := hL.suffix_eq hp hc
  constructor
  · intro h hl hcl
    subst hl
    refine ⟨⟨h.live.erase p, h.lost, h.assigned⟩, ?_, rfl, by simp, hcl⟩
    have e1 : (h.live.filter fun q => ¬ p <:+ q) = h.live.erase p := by
      ext q
      simp only [Finset.mem_filter, Finset.mem_erase, ne_eq]
      constructor
      · rintro ⟨a, b⟩; exact ⟨fun e => b (e ▸ List.suffix_rfl), a⟩
      · rintro ⟨a, b⟩; exact ⟨b, fun e => a (hse q b e)⟩
    have e2 : (h.live.filter fun q => p <:+ q ∧ q ≠ p) = ∅ := by
      refine Finset.filter_false_of_mem fun q hq => ?_
      rintro ⟨a, b⟩
      exact b (hse q hq a)
    simp [exec, Cmd.step, hn, e1, e2]
  · intro q hq
    obtain ⟨h1, h2⟩ := Finset.mem_erase.1 hq
    refine ⟨(hL q h2).1, (hL q h2).2.imp_right fun h => Finset.mem_erase.2 ⟨?_, h⟩⟩
    exact hc q h2

theorem Does.mallocs {L : Finset Ptr} (hL : Tree L) (A : List Ptr) (hnd : A.Nodup)
    (hA : ∀ p ∈ A, p ≠ [] ∧ Ptr.plain p ∧ p ∉ L ∧ (p.tail = [] ∨ p.tail ∈ L ∨ p.tail ∈ A))
    (ho : A.Pairwise fun p q => p.tail ≠ q) :
    Does (mallocs A) L (L ∪ A.toFinset) 0 ∧ Tree (L ∪ A.toFinset) := by
  induction A generalizing L with
  | nil => simpa [Mica.mallocs] using ⟨Does.nil L, hL⟩
  | cons p A ih =>
    rw [List.nodup_cons] at hnd
    rw [List.pairwise_cons] at ho
    obtain ⟨h1, h2, h3, h4⟩ := hA p (by simp)
    have ht : p.tail = [] ∨ p.tail ∈ L := by
      rcases h4 with h | h | h
      · exact .inl h
      · exact .inr h
      · rcases List.mem_cons.1 h with e | e
        · have := congrArg List.length e
          simp at this
          exact .inl (by rw [e]; exact List.eq_nil_of_length_eq_zero (by omega))
        · exact absurd rfl (ho.1 _ e)
    obtain ⟨d1, t1⟩ := Does.malloc hL h1 h2 h3 ht
    obtain ⟨d2, t2⟩ := ih t1 hnd.2 (by
      intro q hq
      obtain ⟨g1, g2, g3, g4⟩ := hA q (by simp [hq])
      refine ⟨g1, g2, ?_, ?_⟩
      · simp only [Finset.mem_insert, not_or]
        exact ⟨fun e => hnd.1 (e ▸ hq), g3⟩
      · simp only [List.mem_cons, Finset.mem_insert] at g4 ⊢
        tauto) ho.2
    have e : L ∪ (p :: A).toFinset = insert p L ∪ A.toFinset := by
      ext; simp; try tauto
    rw [e]
    exact ⟨by simpa [Mica.mallocs] using d1.append d2, t2⟩

theorem Does.frees {L : Finset Ptr} (hL : Tree L) (F : List Ptr) (hnd : F.Nodup)
    (hF : ∀ p ∈ F, p ∈ L ∧ ∀ q ∈ L, q.tail = p → q ∈ F)
    (ho : F.Pairwise fun p q => q.tail ≠ p) :
    Does (frees F) L (L \ F.toFinset) 0 ∧ Tree (L \ F.toFinset) := by
  induction F generalizing L with
  | nil => simpa [Mica.frees] using ⟨Does.nil L, hL⟩
  | cons p F ih =>
    rw [List.nodup_cons] at hnd
    rw [List.pairwise_cons] at ho
    obtain ⟨h1, h2⟩ := hF p (by simp)
    have hc : ∀ q ∈ L, q.tail ≠ p := by
      intro q hq e
      rcases List.mem_cons.1 (h2 q hq e) with e' | e'
      · subst e'
        have := congrArg List.length e
        have h0 := (hL q hq).1
        cases q <;> simp_all
      · exact ho.1 q e' e
    obtain ⟨d1, t1⟩ := Does.free hL h1 hc
    obtain ⟨d2, t2⟩ := ih t1 hnd.2 (by
      intro q hq
      obtain ⟨g1, g2⟩ := hF q (by simp [hq])
      refine ⟨Finset.mem_erase.2 ⟨fun e => hnd.1 (e ▸ hq), g1⟩, fun r hr e => ?_⟩
      obtain ⟨r1, r2⟩ := Finset.mem_erase.1 hr
      rcases List.mem_cons.1 (g2 r r2 e) with e' | e'
      · exact absurd e' r1
      · exact e') ho.2
    have e : L \ (p :: F).toFinset = L.erase p \ F.toFinset := by
      ext; simp; try tauto
    rw [e]
    exact ⟨by simpa [Mica.frees] using d1.append d2, t2⟩

theorem Does.uses {L : Finset Ptr} (U : List Ptr) (hU : ∀ p ∈ U, p ∈ L) : Does (uses U) L L 0 := by
  induction U with
  | nil => exact Does.nil L
  | cons p U ih =>
    have h1 : Does [.use p] L L 0 := by
      intro h hl hc
      subst hl
      exact ⟨h, by simp [exec, Cmd.step, hU p (by simp)], rfl, by simp, hc⟩
    simpa [Mica.uses] using h1.append (ih fun q hq => hU q (by simp [hq]))

/-- A `free` whose block still reaches others. -/
theorem Does.freeLossy {L : Finset Ptr} {p : Ptr} (hn : p ∈ L) :
    Does [.free p] L (L.filter fun q => ¬ p <:+ q) (L.filter fun q => p <:+ q ∧ q ≠ p).val := by
  intro h hl hc
  subst hl
  exact ⟨⟨h.live.filter fun q => ¬ p <:+ q, h.lost + (h.live.filter fun q => p <:+ q ∧ q ≠ p).val,
    h.assigned⟩, by simp only [exec, Cmd.step, if_pos hn]; rfl, rfl, rfl, hc⟩

/-- `free(NULL)`. -/
theorem Does.freeNull {L : Finset Ptr} {p : Ptr} (hn : p ∉ L)
    (hs : (p.head?.elim false fun x => x.1.static) = true) : Does [.free p] L L 0 := by
  intro h hl hc
  subst hl
  refine ⟨h, ?_, rfl, by simp, hc⟩
  have : p ∉ h.assigned := fun hp => by simpa [hs] using hc p hp
  simp [exec, Cmd.step, hn, this, hs]

/-! ## Segments -/

/-- Rank of a name: variables of inner functions have higher rank (only used in proofs, to see that a
name is not in use). -/
def Obj.rank : Obj → ℕ
  | .argv | .bestCon | .bestStdCon | .idxLinePm | .SmatLc | .SmatLl | .SmatLcBuf | .SmatLlBuf
  | .lagPrior | .respRatioPrior => 1
  | .fptrset | .parRange | .parFix | .parFixVal | .modelTrans
  | .psAll | .psTask | .nall | .tall | .fall | .feall | .feallMax | .fallBest | .fallStd | .ntall
  | .yqBest | .yqStd | .feallMaxBuf | .fallBestBuf | .fallStdBuf | .yqBestBuf | .yqStdBuf
  | .tcon | .fcon | .fecon | .yq => 2
  | .rng | .dnRange | .dnType | .dnInfo | .particles | .allAbove | .above | .logLikes | .levelAssign
  | .unaccepts | .levels | .levelsCombine | .copiesLevels | .limits | .copiesLimits | .perturbAccept
  | .pb => 3
  | .bufSize | .bufDispls => 4
  | .proposal | .levelsOrig | .good | .message | .partsAll | .likesAll | .assignAll | .optDict
  | .ppLevels | .ppInfo | .ppLogl | .ppSandwich | .ppPsample | .ppLogx | .ppLogp | .ppLogP
  | .ppLogxThis | .ppLoglThis | .ppRng | .ppSample | .ppSampleInfo | .ppSampleIdx
  | .postModel | .postSample | .bestLine | .bestStdLine | .gapDt
  | .PEmat1 | .PEmat2 | .PEmat3 | .PEmat4 | .fqAll => 5
  | .centers => 6
  | _ => 0

/-- Rank of the variable a pointer is reached from. -/
def rank : Ptr → ℕ
  | [] => 0
  | [x] => x.1.rank
  | _ :: y :: t => rank (y :: t)

@[simp] theorem rank_var (o : Obj) : rank (var o) = o.rank := rfl

theorem rank_mem {p : Ptr} (hp : p ≠ []) (o : Obj) (i : ℕ) : rank (mem p o i) = rank p := by
  cases p with
  | nil => exact absurd rfl hp
  | cons x t => rfl

/-- All blocks have a rank below `r`. -/
def Below (r : ℕ) (L : Finset Ptr) : Prop := ∀ p ∈ L, rank p < r

/-- A segment that needs the blocks `R`, only uses names of rank at least `r`, leaves the memory as it
was and loses `k`. -/
def Seg (R : Set Ptr) (r : ℕ) (P : List Cmd) (k : Multiset Ptr) : Prop :=
  ∀ M : Finset Ptr, R ⊆ ↑M → Tree M → Below r M → Does P M M k

theorem Seg.nil {R : Set Ptr} {r : ℕ} : Seg R r [] 0 := fun M _ _ _ => Does.nil M

theorem Seg.append {R : Set Ptr} {r : ℕ} {P Q : List Cmd} {k l : Multiset Ptr} (h1 : Seg R r P k)
    (h2 : Seg R r Q l) : Seg R r (P ++ Q) (k + l) :=
  fun M a b c => (h1 M a b c).append (h2 M a b c)

theorem Seg.append0 {R : Set Ptr} {r : ℕ} {P Q : List Cmd} (h1 : Seg R r P 0)
    (h2 : Seg R r Q 0) : Seg R r (P ++ Q) 0 := by simpa using h1.append h2

theorem Seg.mono {R R' : Set Ptr} {r r' : ℕ} {P : List Cmd} {k : Multiset Ptr} (h : Seg R r P k)
    (hR : R ⊆ R') (hr : r' ≤ r) : Seg R' r' P k :=
  fun M a b c => h M (hR.trans a) b fun p hp => (c p hp).trans_le hr

theorem Seg.when {R : Set Ptr} {r : ℕ} {b : Bool} {P : List Cmd} (h : b = true → Seg R r P 0) :
    Seg R r (whenC b P) 0 := by
  cases b with
  | false => exact Seg.nil
  | true => exact h rfl

theorem Seg.uses {R : Set Ptr} {r : ℕ} {U : List Ptr} (h : ∀ p ∈ U, p ∈ R) : Seg R r (uses U) 0 :=
  fun _ a _ _ => Does.uses U fun p hp => a (h p hp)

theorem forN_succ (n : ℕ) (f : ℕ → List Cmd) : forN (n + 1) f = forN n f ++ f n := by
  simp [forN, List.range_succ]

theorem Seg.forN {R : Set Ptr} {r n : ℕ} {f : ℕ → List Cmd} {k : ℕ → Multiset Ptr}
    (h : ∀ i < n, Seg R r (f i) (k i)) : Seg R r (forN n f) (∑ i ∈ Finset.range n, k i) := by
  induction n with
  | zero => simpa [Mica.forN] using Seg.nil
  | succ n ih =>
    rw [forN_succ, Finset.sum_range_succ]
    exact (ih fun i hi => h i (by omega)).append (h n (by omega))

theorem Seg.forN0 {R : Set Ptr} {r n : ℕ} {f : ℕ → List Cmd}
    (h : ∀ i < n, Seg R r (f i) 0) : Seg R r (Mica.forN n f) 0 := by
  simpa using Seg.forN (k := fun _ => 0) h

theorem Seg.flatMap {R : Set Ptr} {r : ℕ} {α : Type} {l : List α} {f : α → List Cmd}
    (h : ∀ x ∈ l, Seg R r (f x) 0) : Seg R r (l.flatMap f) 0 := by
  induction l with
  | nil => exact Seg.nil
  | cons x l ih =>
    rw [List.flatMap_cons]
    exact (h x (by simp)).append0 (ih fun y hy => h y (by simp [hy]))

/-- Building up: on top of the blocks `A` the steps add `B`. -/
def Grow (R : Set Ptr) (r r' : ℕ) (A : List Ptr) (P : List Cmd) (B : List Ptr) (k : Multiset Ptr) : Prop :=
  ∀ M : Finset Ptr, R ⊆ ↑M → Below r M → Tree (M ∪ A.toFinset) →
    Below r' (M ∪ A.toFinset) ∧ (∀ p ∈ A, r ≤ rank p) →
    Does P (M ∪ A.toFinset) (M ∪ (A ++ B).toFinset) k ∧ Tree (M ∪ (A ++ B).toFinset) ∧
      Below r' (M ∪ (A ++ B).toFinset) ∧ ∀ p ∈ A ++ B, r ≤ rank p

theorem Grow.append {R : Set Ptr} {r r' : ℕ} {A B C : List Ptr} {P Q : List Cmd} {k l : Multiset Ptr}
    (h1 : Grow R r r' A P B k) (h2 : Grow R r r' (A ++ B) Q C l) : Grow R r r' A (P ++ Q) (B ++ C) (k + l) := by
  intro M a b c d
  obtain ⟨d1, t1, b1⟩ := h1 M a b c d
  obtain ⟨d2, t2, b2⟩ := h2 M a b t1 b1
  rw [List.append_assoc] at d2 t2 b2
  exact ⟨d1.append d2, t2, b2⟩

theorem Grow.append0 {R : Set Ptr} {r r' : ℕ} {A B C : List Ptr} {P Q : List Cmd}
    (h1 : Grow R r r' A P B 0) (h2 : Grow R r r' (A ++ B) Q C 0) : Grow R r r' A (P ++ Q) (B ++ C) 0 := by
  simpa using h1.append h2

theorem Grow.seg {R : Set Ptr} {r r' : ℕ} {A : List Ptr} {P : List Cmd} {k : Multiset Ptr}
    (h : Seg (R ∪ {p | p ∈ A}) r' P k) : Grow R r r' A P [] k := by
  intro M a b c d
  rw [List.append_nil]
  refine ⟨h _ ?_ c d.1, c, d⟩
  intro p hp
  rcases hp with hp | hp
  · exact Finset.mem_coe.2 (Finset.mem_union_left _ (a hp))
  · have : p ∈ A := hp
    simp [this]

theorem Grow.mallocs {R : Set Ptr} {r r' : ℕ} {A B : List Ptr} (hnd : B.Nodup)
    (hB : ∀ p ∈ B, p ≠ [] ∧ Ptr.plain p ∧ r ≤ rank p ∧ rank p < r' ∧ p ∉ A ∧
      (p.tail = [] ∨ p.tail ∈ R ∨ p.tail ∈ A ∨ p.tail ∈ B))
    (ho : B.Pairwise fun p q => p.tail ≠ q) : Grow R r r' A (mallocs B) B 0 := by
  intro M a b c d
  have e : M ∪ (A ++ B).toFinset = (M ∪ A.toFinset) ∪ B.toFinset := by ext; simp
  rw [e]
  obtain ⟨h1, h2⟩ := Does.mallocs c B hnd (by
    intro p hp
    obtain ⟨g1, g2, g3, g4, g5, g6⟩ := hB p hp
    refine ⟨g1, g2, ?_, ?_⟩
    · simp only [Finset.mem_union, List.mem_toFinset, not_or]
      exact ⟨fun hm => absurd (b p hm) (by omega), g5⟩
    · simp only [Finset.mem_union, List.mem_toFinset]
      rcases g6 with g | g | g | g
      · exact .inl g
      · exact .inr (.inl (.inl (a g)))
      · exact .inr (.inl (.inr g))
      · exact .inr (.inr g)) ho
  refine ⟨h1, h2, ?_, ?_⟩
  · intro p hp
    rcases Finset.mem_union.1 hp with hp | hp
    · exact d.1 p hp
    · exact (hB p (List.mem_toFinset.1 hp)).2.2.2.1
  · intro p hp
    rcases List.mem_append.1 hp with hp | hp
    · exact d.2 p hp
    · exact (hB p hp).2.2.1

/-- What has been built up is released. -/
theorem Seg.of_grow {R : Set Ptr} {r r' : ℕ} {A F : List Ptr} {P : List Cmd} {k : Multiset Ptr}
    (h : Grow R r r' [] P A k) (hr : r ≤ r') (hnd : F.Nodup)
    (hF : ∀ p, p ∈ F ↔ p ∈ A)
    (ho : F.Pairwise fun p q => q.tail ≠ p) : Seg R r (P ++ frees F) k := by
  intro M a b c
  have e0 : M ∪ ([] : List Ptr).toFinset = M := by simp
  obtain ⟨h1, h2, -, hA⟩ := h M a c (by rwa [e0])
    ⟨by rw [e0]; exact fun p hp => (c p hp).trans_le hr, by simp⟩
  rw [e0] at h1
  simp only [List.nil_append] at h1 h2 hA
  obtain ⟨h3, -⟩ := Does.frees h2 F hnd (by
    intro p hp
    refine ⟨by simp [(hF p).1 hp], fun q hq e => ?_⟩
    rcases Finset.mem_union.1 hq with hq | hq
    · exfalso
      have hpM : p ∉ M := fun hm => absurd (c p hm) (by have := hA p ((hF p).1 hp); omega)
      rcases (b q hq).2 with h0 | h0
      · rw [e] at h0
        subst h0
        have := (h2 [] (by simp [(hF []).1 hp])).1
        exact this rfl
      · exact hpM (e ▸ h0)
    · exact (hF q).2 (List.mem_toFinset.1 hq)) ho
  have e1 : (M ∪ A.toFinset) \ F.toFinset = M := by
    ext p
    simp only [Finset.mem_sdiff, Finset.mem_union, List.mem_toFinset, hF]
    constructor
    · rintro ⟨h | h, h'⟩
      · exact h
      · exact absurd h h'
    · intro hm
      exact ⟨.inl hm, fun hp => absurd (c p hm) (by have := hA p hp; omega)⟩
  rw [e1] at h3
  simpa using h1.append h3

/-- As `Seg.of_grow`, with steps between the releases that do not change anything. -/
theorem Seg.of_grow2 {R : Set Ptr} {r r' : ℕ} {A F G : List Ptr} {P N : List Cmd} {k l : Multiset Ptr}
    (h : Grow R r r' [] P A k) (hr : r ≤ r')
    (hN : ∀ L : Finset Ptr, (∀ p ∈ L, rank p < r ∨ p ∈ A) → Does N L L l) (hnd : (F ++ G).Nodup)
    (hF : ∀ p, p ∈ F ++ G ↔ p ∈ A)
    (ho : (F ++ G).Pairwise fun p q => q.tail ≠ p) :
    Seg R r (P ++ frees F ++ N ++ frees G) (k + l) := by
  intro M a b c
  have e0 : M ∪ ([] : List Ptr).toFinset = M := by simp
  obtain ⟨h1, h2, -, hA⟩ := h M a c (by rwa [e0])
    ⟨by rw [e0]; exact fun p hp => (c p hp).trans_le hr, by simp⟩
  rw [e0] at h1
  simp only [List.nil_append] at h1 h2 hA
  have key : ∀ p ∈ F ++ G, p ∈ M ∪ A.toFinset ∧ ∀ q ∈ M ∪ A.toFinset, q.tail = p → q ∈ F ++ G := by
    intro p hp
    refine ⟨by simp [(hF p).1 hp], fun q hq e => ?_⟩
    rcases Finset.mem_union.1 hq with hq | hq
    · exfalso
      have hpM : p ∉ M := fun hm => absurd (c p hm) (by have := hA p ((hF p).1 hp); omega)
      rcases (b q hq).2 with h0 | h0
      · rw [e] at h0
        subst h0
        have := (h2 [] (by simp [(hF []).1 hp])).1
        exact this rfl
      · exact hpM (e ▸ h0)
    · exact (hF q).2 (List.mem_toFinset.1 hq)
  rw [List.pairwise_append] at ho
  rw [List.nodup_append] at hnd
  obtain ⟨h3, t3⟩ := Does.frees h2 F hnd.1 (by
    intro p hp
    obtain ⟨g1, g2⟩ := key p (by simp [hp])
    refine ⟨g1, fun q hq e => ?_⟩
    rcases List.mem_append.1 (g2 q hq e) with h | h
    · exact h
    · exact absurd e (ho.2.2 p hp q h)) ho.1
  have hN' := hN ((M ∪ A.toFinset) \ F.toFinset) (by
    intro p hp
    simp only [Finset.mem_sdiff, Finset.mem_union, List.mem_toFinset] at hp
    exact hp.1.imp (c p) id)
  obtain ⟨h4, -⟩ := Does.frees t3 G hnd.2.1 (by
    intro p hp
    obtain ⟨g1, g2⟩ := key p (by simp [hp])
    refine ⟨Finset.mem_sdiff.2 ⟨g1, fun h => hnd.2.2 _ (List.mem_toFinset.1 h) _ hp rfl⟩, fun q hq e => ?_⟩
    obtain ⟨q1, q2⟩ := Finset.mem_sdiff.1 hq
    rcases List.mem_append.1 (g2 q q1 e) with h | h
    · exact absurd (List.mem_toFinset.2 h) q2
    · exact h) ho.2.1
  have e1 : ((M ∪ A.toFinset) \ F.toFinset) \ G.toFinset = M := by
    ext p
    have := hF p
    simp only [List.mem_append] at this
    simp only [Finset.mem_sdiff, Finset.mem_union, List.mem_toFinset]
    constructor
    · rintro ⟨⟨h | h, h'⟩, h''⟩
      · exact h
      · rcases this.2 h with h | h
        · exact absurd h h'
        · exact absurd h h''
    · intro hm
      have hp : p ∉ A := fun hp => absurd (c p hm) (by have := hA p hp; omega)
      exact ⟨⟨.inl hm, fun h => hp (this.1 (.inl h))⟩, fun h => hp (this.1 (.inr h))⟩
  rw [e1] at h4
  simpa using ((h1.append h3).append hN').append h4

/-! ## Shapes of lists -/

theorem mallocs_forN (n : ℕ) (f : ℕ → List Ptr) :
    forN n (fun i => mallocs (f i)) = mallocs ((List.range n).flatMap f) := by
  simp [forN, mallocs, List.map_flatMap]

theorem frees_forN (n : ℕ) (f : ℕ → List Ptr) :
    forN n (fun i => frees (f i)) = frees ((List.range n).flatMap f) := by
  simp [forN, frees, List.map_flatMap]

theorem mallocs_when (b : Bool) (l : List Ptr) : whenC b (mallocs l) = mallocs (if b then l else []) := by
  cases b <;> rfl

theorem frees_when (b : Bool) (l : List Ptr) : whenC b (frees l) = frees (if b then l else []) := by
  cases b <;> rfl

theorem frees_append (a b : List Ptr) : frees (a ++ b) = frees a ++ frees b := by simp [frees]

theorem mallocs_append (a b : List Ptr) : mallocs (a ++ b) = mallocs a ++ mallocs b := by simp [mallocs]

theorem nodup_loop {n : ℕ} {f : ℕ → List Ptr} (h1 : ∀ i, (f i).Nodup)
    (h2 : ∀ i j, i ≠ j → ∀ p ∈ f i, p ∉ f j) : ((List.range n).flatMap f).Nodup := by
  rw [List.nodup_flatMap]
  refine ⟨fun i _ => h1 i, ?_⟩
  exact List.nodup_range.imp fun {i j} hij p hp hq => h2 i j hij p hp hq

theorem pairwise_loop {n : ℕ} {f : ℕ → List Ptr} {S : Ptr → Ptr → Prop} (h1 : ∀ i, (f i).Pairwise S)
    (h2 : ∀ i j, i ≠ j → ∀ p ∈ f i, ∀ q ∈ f j, S p q) : ((List.range n).flatMap f).Pairwise S := by
  rw [List.pairwise_flatMap]
  refine ⟨fun i _ => h1 i, ?_⟩
  exact List.nodup_range.imp fun {i j} hij p hp q hq => h2 i j hij p hp q hq

/-- Allocations in a loop. -/
theorem Grow.loop {R : Set Ptr} {r r' n : ℕ} {A : List Ptr} {f : ℕ → List Ptr} (h1 : ∀ i, (f i).Nodup)
    (h2 : ∀ i j, i ≠ j → ∀ p ∈ f i, p ∉ f j)
    (hB : ∀ i < n, ∀ p ∈ f i, p ≠ [] ∧ Ptr.plain p ∧ r ≤ rank p ∧ rank p < r' ∧ p ∉ A ∧
      (p.tail = [] ∨ p.tail ∈ R ∨ p.tail ∈ A))
    (h3 : ∀ i j, ∀ p ∈ f i, ∀ q ∈ f j, p.tail ≠ q) :
    Grow R r r' A (forN n fun i => Mica.mallocs (f i)) ((List.range n).flatMap f) 0 := by
  rw [mallocs_forN]
  refine Grow.mallocs (nodup_loop h1 h2) ?_ (pairwise_loop ?_ fun i j _ => h3 i j)
  · intro p hp
    obtain ⟨i, hi, hp⟩ := List.mem_flatMap.1 hp
    obtain ⟨a, b, c, d, e, g⟩ := hB i (List.mem_range.1 hi) p hp
    exact ⟨a, b, c, d, e, by tauto⟩
  · intro i
    exact List.pairwise_iff_getElem.2 fun a b _ _ _ => h3 i i _ (List.getElem_mem _) _ (List.getElem_mem _)

/-- Two nested loops. -/
theorem Grow.loop2 {R : Set Ptr} {r r' n : ℕ} {m : ℕ → ℕ} {A : List Ptr} {f : ℕ → ℕ → List Ptr}
    (h1 : ∀ i j, (f i j).Nodup)
    (h2 : ∀ i j k l, ¬ (i = k ∧ j = l) → ∀ p ∈ f i j, p ∉ f k l)
    (hB : ∀ i < n, ∀ j < m i, ∀ p ∈ f i j, p ≠ [] ∧ Ptr.plain p ∧ r ≤ rank p ∧ rank p < r' ∧ p ∉ A ∧
      (p.tail = [] ∨ p.tail ∈ R ∨ p.tail ∈ A))
    (h3 : ∀ i j k l, ∀ p ∈ f i j, ∀ q ∈ f k l, p.tail ≠ q) :
    Grow R r r' A (forN n fun i => forN (m i) fun j => Mica.mallocs (f i j))
      ((List.range n).flatMap fun i => (List.range (m i)).flatMap (f i)) 0 := by
  have e : (fun i => forN (m i) fun j => Mica.mallocs (f i j)) =
      fun i => Mica.mallocs ((List.range (m i)).flatMap (f i)) := by
    funext i
    rw [mallocs_forN]
  rw [e]
  refine Grow.loop ?_ ?_ ?_ ?_
  · exact fun i => nodup_loop (h1 i) fun j l hjl => h2 i j i l (by tauto)
  · intro i k hik p hp hq
    obtain ⟨j, -, hp⟩ := List.mem_flatMap.1 hp
    obtain ⟨l, -, hq⟩ := List.mem_flatMap.1 hq
    exact h2 i j k l (by tauto) p hp hq
  · intro i hi p hp
    obtain ⟨j, hj, hp⟩ := List.mem_flatMap.1 hp
    exact hB i hi j (List.mem_range.1 hj) p hp
  · intro i k p hp q hq
    obtain ⟨j, -, hp⟩ := List.mem_flatMap.1 hp
    obtain ⟨l, -, hq⟩ := List.mem_flatMap.1 hq
    exact h3 i j k l p hp q hq

theorem forall_flat {α β : Type} {l : List α} {f : α → List β} {P : β → Prop} :
    (∀ x ∈ l.flatMap f, P x) ↔ ∀ a ∈ l, ∀ x ∈ f a, P x := by
  simp only [List.mem_flatMap]
  constructor
  · exact fun h a ha x hx => h x ⟨a, ha, hx⟩
  · rintro h x ⟨a, ha, hx⟩
    exact h a ha x hx

theorem forN_uses (n : ℕ) (f : ℕ → List Ptr) : forN n (fun i => uses (f i)) = uses ((List.range n).flatMap f) := by
  simp [forN, uses, List.map_flatMap]

theorem when_append (b : Bool) (P Q : List Cmd) : whenC b (P ++ Q) = whenC b P ++ whenC b Q := by
  cases b <;> rfl

theorem when_when (a b : Bool) (P : List Cmd) : whenC a (whenC b P) = whenC (a && b) P := by
  cases a <;> cases b <;> rfl

end Mica
