import Verif.Proof.InitLaw
import Verif.Proof.Invariance9
import Mathlib.GroupTheory.Perm.ViaEmbedding
import Mathlib.Data.Fin.Tuple.Sort
import Mathlib.Probability.Independence.Basic

/-! # Helper lemmas for C120: sorting independent numbers -/

open MeasureTheory Set
open scoped ENNReal

namespace Mica

/-- Two coordinates of a product measure without atoms differ. -/
theorem pi_tie {N : ℕ} {σ : Fin N → Measure ℝ} (hp : ∀ i, IsProbabilityMeasure (σ i)) {i j : Fin N} (h : i ≠ j) (ha : NullSingletonClass (σ j)) :
    Measure.pi σ {x | x i = x j} = 0 := by
  have hind := (ProbabilityTheory.iIndepFun_pi (μ := σ) (X := fun _ => id) fun i => aemeasurable_id).indepFun h
  have hi : AEMeasurable (fun x : Fin N → ℝ => id (x i)) (Measure.pi σ) := (measurable_pi_apply i).aemeasurable
  have hj : AEMeasurable (fun x : Fin N → ℝ => id (x j)) (Measure.pi σ) := (measurable_pi_apply j).aemeasurable
  rw [ProbabilityTheory.indepFun_iff_map_prod_eq_prod_map_map hi hj] at hind
  have hm : MeasurableSet {p : ℝ × ℝ | p.1 = p.2} := measurableSet_eq_fun measurable_fst measurable_snd
  have e1 : Measure.pi σ {x | x i = x j} = ((Measure.pi σ).map fun x => (id (x i), id (x j))) {p : ℝ × ℝ | p.1 = p.2} := by
    rw [Measure.map_apply (by fun_prop) hm]
    rfl
  have ej : (Measure.pi σ).map (fun x => id (x j)) = σ j := (measurePreserving_eval σ j).map_eq
  rw [e1, hind, ej, Measure.measure_prod_null hm]
  refine Filter.Eventually.of_forall fun a => ?_
  beta_reduce
  have : Prod.mk a ⁻¹' {p : ℝ × ℝ | p.1 = p.2} = {a} := by ext b; simp [eq_comm]
  rw [this]
  exact measure_singleton a

section
variable {N B G : ℕ} (cen : Fin B × Fin G ↪ Fin N)

/-- The permutation of the coordinates that permutes each block by `g`. -/
noncomputable def blockPerm (g : Fin B → Equiv.Perm (Fin G)) : Equiv.Perm (Fin N) :=
  Equiv.Perm.viaEmbedding (Equiv.prodCongrRight g) cen

theorem blockPerm_cen (g : Fin B → Equiv.Perm (Fin G)) (b : Fin B) (k : Fin G) : blockPerm cen g (cen (b, k)) = cen (b, g b k) :=
  Equiv.Perm.viaEmbedding_apply (Equiv.prodCongrRight g) cen (b, k)

theorem blockPerm_other (g : Fin B → Equiv.Perm (Fin G)) (i : Fin N) (h : i ∉ range cen) : blockPerm cen g i = i :=
  Equiv.Perm.viaEmbedding_apply_of_notMem (Equiv.prodCongrRight g) cen i h

/-- Vectors whose blocks are strictly increasing. -/
def strictBlocks : Set (Fin N → ℝ) := {x | ∀ b, StrictMono fun k => x (cen (b, k))}

/-- Vectors whose blocks are increasing. -/
def monoBlocks : Set (Fin N → ℝ) := {x | ∀ b, Monotone fun k => x (cen (b, k))}

theorem measurableSet_monoBlocks : MeasurableSet (monoBlocks cen) := by
  have : monoBlocks cen = ⋂ (b) (k) (k') (_ : k ≤ k'), {x : Fin N → ℝ | x (cen (b, k)) ≤ x (cen (b, k'))} := by
    ext x; simp only [monoBlocks, Monotone, mem_iInter, mem_ofPred_eq]
  rw [this]
  exact MeasurableSet.iInter fun b => MeasurableSet.iInter fun k => MeasurableSet.iInter fun k' => MeasurableSet.iInter fun _ =>
    measurableSet_le (measurable_pi_apply _) (measurable_pi_apply _)

theorem measurableSet_strictBlocks : MeasurableSet (strictBlocks cen) := by
  have : strictBlocks cen = ⋂ (b) (k) (k') (_ : k < k'), {x : Fin N → ℝ | x (cen (b, k)) < x (cen (b, k'))} := by
    ext x; simp only [strictBlocks, StrictMono, mem_iInter, mem_ofPred_eq]
  rw [this]
  exact MeasurableSet.iInter fun b => MeasurableSet.iInter fun k => MeasurableSet.iInter fun k' => MeasurableSet.iInter fun _ =>
    measurableSet_lt (measurable_pi_apply _) (measurable_pi_apply _)

/-- Vectors that `g` sorts. -/
def sortedBy (g : Fin B → Equiv.Perm (Fin G)) : Set (Fin N → ℝ) := {x | (fun i => x (blockPerm cen g i)) ∈ strictBlocks cen}

theorem measurable_perm (e : Equiv.Perm (Fin N)) : Measurable fun (x : Fin N → ℝ) i => x (e i) :=
  measurable_pi_lambda _ fun i => measurable_pi_apply (e i)

theorem pi_perm {σ : Fin N → Measure ℝ} (hp : ∀ i, IsProbabilityMeasure (σ i)) (e : Equiv.Perm (Fin N)) (he : ∀ i, σ (e i) = σ i) :
    (Measure.pi σ).map (fun x i => x (e i)) = Measure.pi σ := by
  have h := (measurePreserving_piCongrLeft (α := fun _ : Fin N => ℝ) σ e.symm).map_eq
  have e1 : (fun i' => σ (e.symm i')) = σ := by
    funext i
    have := he (e.symm i)
    rw [Equiv.apply_symm_apply] at this
    exact this.symm
  rw [e1] at h
  have e2 : (MeasurableEquiv.piCongrLeft (fun _ : Fin N => ℝ) e.symm : (Fin N → ℝ) → Fin N → ℝ) = fun x i => x (e i) := by
    funext x i
    have := Equiv.piCongrLeft_apply_apply (P := fun _ : Fin N => ℝ) e.symm x (e i)
    rw [Equiv.symm_apply_apply] at this
    exact this
  rw [← e2]
  exact h

theorem sortedBy_disjoint : Pairwise fun g g' => Disjoint (sortedBy cen g) (sortedBy cen g') := by
  intro g g' hne
  rw [Set.disjoint_left]
  intro x hx hx'
  apply hne
  funext b
  have h1 : StrictMono ((fun k => x (cen (b, k))) ∘ g b) := by
    have := hx b
    simp only [blockPerm_cen] at this
    exact this
  have h2 : StrictMono ((fun k => x (cen (b, k))) ∘ g' b) := by
    have := hx' b
    simp only [blockPerm_cen] at this
    exact this
  have hr : range ((fun k => x (cen (b, k))) ∘ g b) = range ((fun k => x (cen (b, k))) ∘ g' b) := by
    rw [(g b).surjective.range_comp, (g' b).surjective.range_comp]
  have h3 := (StrictMono.range_inj h1 h2).1 hr
  have hinj : Function.Injective fun k => x (cen (b, k)) := by
    have := h1.injective
    have h4 := this.comp (g b).symm.injective
    rw [Function.comp_assoc, Equiv.self_comp_symm] at h4
    exact h4
  ext k
  have := hinj (congrFun h3 k)
  rw [this]

theorem sortedBy_cover {x : Fin N → ℝ} (h : ∀ b k k', k ≠ k' → x (cen (b, k)) ≠ x (cen (b, k'))) : ∃ g, x ∈ sortedBy cen g := by
  refine ⟨fun b => Tuple.sort fun k => x (cen (b, k)), fun b => ?_⟩
  simp only [blockPerm_cen]
  have hm : Monotone ((fun k => x (cen (b, k))) ∘ Tuple.sort fun k => x (cen (b, k))) := Tuple.monotone_sort _
  refine hm.strictMono_of_injective ?_
  refine Function.Injective.comp ?_ (Equiv.injective _)
  intro k k' hk
  by_contra hne
  exact h b k k' hne hk

/-- **Sorting the blocks of independent numbers** gives their law restricted to the sorted vectors, times the number of arrangements. -/
theorem map_sort {σ : Fin N → Measure ℝ} (hp : ∀ i, IsProbabilityMeasure (σ i)) (ha : ∀ b k, NullSingletonClass (σ (cen (b, k))))
    (he : ∀ b k k', σ (cen (b, k)) = σ (cen (b, k'))) (s : (Fin N → ℝ) → Fin N → ℝ)
    (hother : ∀ x i, i ∉ range cen → s x i = x i) (hmono : ∀ x b, Monotone fun k => s x (cen (b, k)))
    (hperm : ∀ x b, ∃ p : Equiv.Perm (Fin G), ∀ k, s x (cen (b, k)) = x (cen (b, p k))) :
    AEMeasurable s (Measure.pi σ) ∧
      (Measure.pi σ).map s = (Fintype.card (Fin B → Equiv.Perm (Fin G)) : ℝ≥0∞) • (Measure.pi σ).restrict (monoBlocks cen) := by
  have hσ : ∀ (g : Fin B → Equiv.Perm (Fin G)) i, σ (blockPerm cen g i) = σ i := by
    intro g i
    by_cases h : i ∈ range cen
    · obtain ⟨⟨b, k⟩, rfl⟩ := h
      rw [blockPerm_cen]; exact he _ _ _
    · rw [blockPerm_other _ _ _ h]
  have hties : Measure.pi σ {x | ∃ b k k', k ≠ k' ∧ x (cen (b, k)) = x (cen (b, k'))} = 0 := by
    have : {x : Fin N → ℝ | ∃ b k k', k ≠ k' ∧ x (cen (b, k)) = x (cen (b, k'))} =
        ⋃ (b) (k) (k') (_ : k ≠ k'), {x : Fin N → ℝ | x (cen (b, k)) = x (cen (b, k'))} := by
      ext x; simp only [mem_ofPred_eq, mem_iUnion, exists_prop]
    rw [this]
    simp only [measure_iUnion_null_iff]
    intro b k k' hne
    have := ha b k'
    exact pi_tie hp (fun h => hne (by simpa using cen.injective h)) (ha b k')
  have hcover : ∀ᵐ x ∂Measure.pi σ, ∃ g, x ∈ sortedBy cen g := by
    refine Filter.Eventually.mono (measure_eq_zero_iff_ae_notMem.1 hties) fun x hx => sortedBy_cover cen fun b k k' hne h => hx ?_
    exact ⟨b, k, k', hne, h⟩
  have hs : ∀ g x, x ∈ sortedBy cen g → s x = fun i => x (blockPerm cen g i) := by
    intro g x hx
    funext i
    by_cases h : i ∈ range cen
    · obtain ⟨⟨b, k⟩, rfl⟩ := h
      rw [blockPerm_cen]
      obtain ⟨p, hpp⟩ := hperm x b
      have h1 : StrictMono ((fun k => x (cen (b, k))) ∘ g b) := by
        have := hx b
        simp only [blockPerm_cen] at this
        exact this
      have hinj : Function.Injective fun k => x (cen (b, k)) := by
        have h4 := h1.injective.comp (g b).symm.injective
        rw [Function.comp_assoc, Equiv.self_comp_symm] at h4
        exact h4
      have h2 : StrictMono ((fun k => x (cen (b, k))) ∘ p) := by
        have h3 := hmono x b
        simp only [hpp] at h3
        exact Monotone.strictMono_of_injective h3 (hinj.comp p.injective)
      have hr : range ((fun k => x (cen (b, k))) ∘ g b) = range ((fun k => x (cen (b, k))) ∘ p) := by
        rw [(g b).surjective.range_comp, p.surjective.range_comp]
      rw [hpp k]
      exact (congrFun ((StrictMono.range_inj h1 h2).1 hr) k).symm
    · rw [hother x i h, blockPerm_other _ _ _ h]
  have hmeas : ∀ g, MeasurableSet (sortedBy cen g) := fun g => measurable_perm _ (measurableSet_strictBlocks cen)
  have hae : AEMeasurable s (Measure.pi σ) := by
    refine ⟨fun x => ∑ g, (sortedBy cen g).indicator (fun x i => x (blockPerm cen g i)) x, ?_, ?_⟩
    · exact Finset.measurable_sum _ fun g _ => (measurable_perm _).indicator (hmeas g)
    · refine hcover.mono fun x hx => ?_
      obtain ⟨g, hg⟩ := hx
      simp only
      rw [Finset.sum_eq_single g, indicator_of_mem hg, hs g x hg]
      · intro g' _ hne
        exact indicator_of_notMem (fun h => Set.disjoint_left.1 (sortedBy_disjoint cen hne) h hg) _
      · simp
  refine ⟨hae, ?_⟩
  ext A hA
  rw [Measure.map_apply_of_aemeasurable hae hA, Measure.smul_apply, Measure.restrict_apply hA, smul_eq_mul]
  have e1 : Measure.pi σ (s ⁻¹' A) = Measure.pi σ (⋃ g, (fun x i => x (blockPerm cen g i)) ⁻¹' (A ∩ strictBlocks cen)) := by
    refine measure_congr (hcover.mono fun x hx => ?_)
    obtain ⟨g, hg⟩ := hx
    apply propext
    change s x ∈ A ↔ x ∈ ⋃ g, _
    rw [mem_iUnion]
    constructor
    · intro h
      exact ⟨g, by rw [hs g x hg] at h; exact h, hg⟩
    · rintro ⟨g', h1, h2⟩
      rw [hs g' x h2]
      exact h1
  have e2 : Measure.pi σ (A ∩ monoBlocks cen) = Measure.pi σ (A ∩ strictBlocks cen) := by
    refine measure_congr (Filter.Eventually.mono (measure_eq_zero_iff_ae_notMem.1 hties) fun x hx => ?_)
    apply propext
    refine and_congr_right fun _ => ⟨fun h b => (h b).strictMono_of_injective ?_, fun h b => (h b).monotone⟩
    intro k k' hk
    by_contra hne
    exact hx ⟨b, k, k', hne, hk⟩
  rw [e1, e2, measure_iUnion]
  · have : ∀ g, Measure.pi σ ((fun x i => x (blockPerm cen g i)) ⁻¹' (A ∩ strictBlocks cen)) = Measure.pi σ (A ∩ strictBlocks cen) := by
      intro g
      rw [← Measure.map_apply (measurable_perm _) (hA.inter (measurableSet_strictBlocks cen)), pi_perm hp _ (hσ g)]
    simp only [this, tsum_fintype, Finset.sum_const, Finset.card_univ, nsmul_eq_mul]
  · intro g g' hne
    refine (sortedBy_disjoint cen hne).mono ?_ ?_
    · exact fun x hx => hx.2
    · exact fun x hx => hx.2
  · exact fun g => measurable_perm _ (hA.inter (measurableSet_strictBlocks cen))

end

/-! ## The sorting loop of the initial draw -/

theorem msortC_tuple_sort {n : ℕ} (f : ℕ → ℝ) :
    msortC micaCmp ((List.range n).map f) = List.ofFn fun k => f (Tuple.sort (fun k : Fin n => f k) k) := by
  have h1 : (List.range n).map f = List.ofFn fun k : Fin n => f k := by
    rw [List.ofFn_eq_map, ← List.map_coe_finRange_eq_range, List.map_map]
    rfl
  refine List.Perm.eq_of_pairwise (le := (· ≤ ·)) (fun a b _ _ h h' => le_antisymm h h') (micaCmp_sorted _) ?_ ?_
  · rw [List.pairwise_ofFn]
    intro i j hij
    exact Tuple.monotone_sort (fun k : Fin n => f k) hij.le
  · refine (msortC_perm _ _).trans ?_
    rw [h1]
    exact (Equiv.Perm.ofFn_comp_perm (Tuple.sort fun k : Fin n => f k) (fun k : Fin n => f k)).symm

namespace LineCfg
variable (c : LineCfg)

theorem sortBlock_tuple (pm : ℕ → ℝ) (b : ℕ) :
    (∀ a, (∀ k < c.ng, a ≠ c.cen b k) → c.sortBlock pm (c.blk * b) a = pm a) ∧
    ∀ k : Fin c.ng, c.sortBlock pm (c.blk * b) (c.cen b k) = pm (c.cen b (Tuple.sort (fun k : Fin c.ng => pm (c.cen b k)) k)) := by
  have hcen : ∀ j, c.numVar + c.blk * b + 1 + j * 3 + 1 = c.cen b j := by
    intro j; unfold cen; omega
  unfold sortBlock
  simp only [hcen]
  rw [msortC_tuple_sort]
  obtain ⟨h1, h2⟩ := foldl_update_range (c.cen b)
    (fun j => (List.ofFn fun k => pm (c.cen b (Tuple.sort (fun k : Fin c.ng => pm (c.cen b k)) k))).getD j 0) c.ng pm
    fun i hi j hj h => (c.cen_inj hi hj h).2
  refine ⟨h1, fun k => ?_⟩
  rw [h2 k k.2, List.getD_eq_getElem _ _ (by simp)]
  simp

theorem sortLoop_tuple (pm : ℕ → ℝ) (n : ℕ) :
    let pm' := (List.range n).foldl (fun pm b => c.sortBlock pm (c.blk * b)) pm
    (∀ a, (∀ b < n, ∀ k < c.ng, a ≠ c.cen b k) → pm' a = pm a) ∧
    ∀ b < n, ∀ k : Fin c.ng, pm' (c.cen b k) = pm (c.cen b (Tuple.sort (fun k : Fin c.ng => pm (c.cen b k)) k)) := by
  induction n with
  | zero => simp
  | succ n ih =>
    obtain ⟨h1, h2⟩ := ih
    intro pm'
    have hpm' : pm' = c.sortBlock
        ((List.range n).foldl (fun pm b => c.sortBlock pm (c.blk * b)) pm) (c.blk * n) := by
      simp only [pm', List.range_succ, List.foldl_append, List.foldl_cons, List.foldl_nil]
    generalize (List.range n).foldl (fun pm b => c.sortBlock pm (c.blk * b)) pm = p at *
    have hp : ∀ k < c.ng, p (c.cen n k) = pm (c.cen n k) := fun k hk =>
      h1 _ fun b hb k' hk' e => by have := c.cen_inj hk hk' e; omega
    obtain ⟨g1, g2⟩ := c.sortBlock_tuple p n
    rw [hpm']
    refine ⟨fun a ha => ?_, fun b hb k => ?_⟩
    · rw [g1 a (ha n (by omega))]
      exact h1 a fun b hb => ha b (by omega)
    · by_cases e : b = n
      · subst e
        rw [g2 k, hp _ (Fin.is_lt _)]
        have : (fun k : Fin c.ng => p (c.cen b k)) = fun k : Fin c.ng => pm (c.cen b k) := funext fun k => hp k k.2
        rw [this]
      · rw [g1 _ fun k' hk' h => e (c.cen_inj k.2 hk' h).1]
        exact h2 b (by omega) k

/-- The addresses of the lags. -/
def cenEmb : Fin c.nblocks × Fin c.ng ↪ Fin c.numParams where
  toFun p := ⟨c.cen p.1 p.2, c.cen_lt p.1.2 p.2.2⟩
  inj' := by
    rintro ⟨b, k⟩ ⟨b', k'⟩ h
    simp only [Fin.mk.injEq] at h
    obtain ⟨h1, h2⟩ := c.cen_inj k.2 k'.2 h
    exact Prod.ext (Fin.ext h1) (Fin.ext h2)

/-- What the ordered prior asks for. -/
theorem order_monoBlocks (ho : c.typeLag = 0) (huni : c.uniTf ≠ 2) (y : Fin c.numParams → ℝ) :
    (c.typeLag = 0 → ∀ i j k, i < c.nl.length → j < ownLines c i → k + 1 < c.ng →
      extendVec y (lineStart c i j + (3 * k + 2)) ≤ extendVec y (lineStart c i j + (3 * (k + 1) + 2))) ↔ y ∈ monoBlocks c.cenEmb := by
  have hext : ∀ (b : Fin c.nblocks) (k : Fin c.ng), extendVec y (c.cen b k) = y (c.cenEmb (b, k)) := by
    intro b k
    unfold extendVec
    rw [dif_pos (c.cen_lt b.2 k.2)]
    rfl
  constructor
  · intro h b
    obtain ⟨i, j, hi, hj, hb⟩ : ∃ i j, i < c.nl.length ∧ j < ownLines c i ∧ c.bno i j = b := by
      by_cases hu : c.uniTf = 1
      · have hn : c.nblocks = c.nl.foldl max 0 := by unfold nblocks; rw [if_pos hu]; rfl
        have hb : (b : ℕ) < c.nl.foldl max 0 := lt_of_lt_of_eq b.2 hn
        have hne : 0 < c.nl.length := by
          rcases hnl : c.nl with - | ⟨a, l⟩
          · rw [hnl] at hb; simp at hb
          · simp
        refine ⟨c.nl.length - 1, b, by omega, ?_, ?_⟩
        · unfold ownLines
          rw [if_pos hu, if_pos (by omega)]
          exact hb
        · unfold bno; rw [if_pos hu]; omega
      · obtain ⟨i, j, hj, hb⟩ := c.bno_surj b b.2
        refine ⟨i, j, ?_, ?_, hb⟩
        · by_contra hl
          rw [List.getD_eq_default _ _ (by omega)] at hj
          omega
        · unfold ownLines
          rw [if_neg hu, if_neg huni]
          exact hj
    have hstep : ∀ k (hk : k + 1 < c.ng), y (c.cenEmb (b, ⟨k, by omega⟩)) ≤ y (c.cenEmb (b, ⟨k + 1, hk⟩)) := by
      intro k hk
      have := h ho i j k hi hj hk
      rw [c.lag_cen, c.lag_cen, hb] at this
      rwa [← hext, ← hext]
    intro k k' hkk
    obtain ⟨k, hk⟩ := k
    obtain ⟨k', hk'⟩ := k'
    have hle : k ≤ k' := hkk
    clear hkk
    induction k', hle using Nat.le_induction with
    | base => exact le_rfl
    | succ m hm ih => exact (ih (by omega)).trans (hstep m hk')
  · intro h _ i j k hi hj hk
    have hbn : c.bno i j < c.nblocks := by
      unfold ownLines at hj
      by_cases hu : c.uniTf = 1
      · rw [if_pos hu] at hj
        have hn : c.nblocks = c.nl.foldl max 0 := by unfold nblocks; rw [if_pos hu]; rfl
        rw [hn]
        unfold bno
        rw [if_pos hu]
        split at hj <;> omega
      · rw [if_neg hu, if_neg huni] at hj
        exact c.bno_lt i j hj
    rw [c.lag_cen, c.lag_cen]
    have h2 := h ⟨c.bno i j, hbn⟩ (show (⟨k, by omega⟩ : Fin c.ng) ≤ ⟨k + 1, hk⟩ from Nat.le_succ k)
    simp only [← hext] at h2
    exact h2

end LineCfg

/-- The sorting step of the initial draw on a vector of parameters. -/
noncomputable def sortVec (c : LineCfg) (x : Fin c.numParams → ℝ) : Fin c.numParams → ℝ := fun i => c.sortAll (extendVec x) i

theorem sortVec_spec (c : LineCfg) (ho : c.ordered = true) (x : Fin c.numParams → ℝ) :
    (∀ i, i ∉ range c.cenEmb → sortVec c x i = x i) ∧
    ∀ b k, sortVec c x (c.cenEmb (b, k)) = x (c.cenEmb (b, Tuple.sort (fun k : Fin c.ng => x (c.cenEmb (b, k))) k)) := by
  have hn : c.numLine / c.blk = c.nblocks := c.numLine_div
  have hext : ∀ (b : Fin c.nblocks) (k : Fin c.ng), extendVec x (c.cen b k) = x (c.cenEmb (b, k)) := by
    intro b k
    unfold extendVec
    rw [dif_pos (c.cen_lt b.2 k.2)]
    rfl
  obtain ⟨h1, h2⟩ := c.sortLoop_tuple (extendVec x) c.nblocks
  constructor
  · intro i hi
    unfold sortVec LineCfg.sortAll
    rw [if_pos ho, hn, h1 i]
    · simp [extendVec]
    · intro b hb k hk h
      exact hi ⟨(⟨b, hb⟩, ⟨k, hk⟩), Fin.ext h.symm⟩
  · intro b k
    unfold sortVec LineCfg.sortAll
    rw [if_pos ho, hn]
    have := h2 b b.2 k
    simp only [hext] at this
    exact this

theorem startVec_ordered (c : LineCfg) (ho : c.ordered = true) (hpos : c.posivity = false) (huni : c.uniTf ≠ 2)
    (hr : ∀ i < c.numVar, (c.rng i).1 < (c.rng i).2) (mem : ℕ → ℝ) (v : ℕ → ℕ → ℝ × ℝ) (r : Fin c.numParams → ℝ × ℝ) :
    startVec c mem v r = sortVec c fun i : Fin c.numParams => drawOne c i (r i) := by
  obtain ⟨pm, h1, h2⟩ := drawVar_folded c (drawOf v r) mem c.numVar hr
  have hf : c.fromPrior (drawOf v r) mem = .ok (c.putFixed (c.sortAll (c.drawLine (drawOf v r) pm))) := by
    unfold LineCfg.fromPrior LineCfg.share LineCfg.posAll
    rw [h1, Res.ok_bind, hpos, if_neg huni]
    rfl
  have hdraw : ∀ i : Fin c.numParams, c.fix i = none → c.drawLine (drawOf v r) pm i = drawOne c i (r i) := by
    intro i hfi
    unfold drawOne
    rw [hfi]
    simp only [LineCfg.drawLine]
    by_cases hi : (i : ℕ) < c.numVar
    · rw [if_neg (by omega), if_pos hi, h2 i hi]
      simp [drawOf, extendVec]
    · rw [if_pos ⟨by omega, i.2⟩, if_neg hi]
      simp [drawOf, extendVec]
  have hfree : ∀ b k, c.fix (c.cenEmb (b, k)) = none := by
    intro b k
    by_contra hn
    exact huni (c.fix_cen_ordered ho k.2 hn).1
  unfold startVec
  rw [hf]
  funext i
  show c.putFixed (c.sortAll (c.drawLine (drawOf v r) pm)) i = _
  obtain ⟨s1, s2⟩ := sortVec_spec c ho fun i : Fin c.numParams => drawOne c i (r i)
  obtain ⟨l1, l2⟩ := c.sortLoop_tuple (c.drawLine (drawOf v r) pm) c.nblocks
  have hn : c.numLine / c.blk = c.nblocks := c.numLine_div
  have hs : c.sortAll (c.drawLine (drawOf v r) pm) =
      (List.range c.nblocks).foldl (fun pm b => c.sortBlock pm (c.blk * b)) (c.drawLine (drawOf v r) pm) := by
    unfold LineCfg.sortAll
    rw [if_pos ho, hn]
  rw [hs]
  by_cases hi : i ∈ range c.cenEmb
  · obtain ⟨⟨b, k⟩, rfl⟩ := hi
    unfold LineCfg.putFixed
    rw [hfree b k, s2 b k]
    simp only
    have h3 : ∀ k : Fin c.ng, c.drawLine (drawOf v r) pm (c.cen b k) = drawOne c (c.cenEmb (b, k)) (r (c.cenEmb (b, k))) := by
      intro k
      exact hdraw (c.cenEmb (b, k)) (hfree b k)
    have h4 := l2 b b.2 k
    simp only [h3] at h4
    exact h4
  · rw [s1 i hi]
    unfold LineCfg.putFixed
    cases hfi : c.fix i with
    | some w => simp [drawOne, hfi]
    | none =>
      simp only
      rw [l1 i, hdraw i hfi]
      intro b hb k hk h
      exact hi ⟨(⟨b, hb⟩, ⟨k, hk⟩), Fin.ext h.symm⟩

theorem startLaw_ordered (c : LineCfg) (ho : c.ordered = true) (hpos : c.posivity = false) (huni : c.uniTf ≠ 2)
    (hr : ∀ i < c.numVar, (c.rng i).1 < (c.rng i).2) (hlr : ∀ b k, (c.rng (c.cenEmb (b, k))).1 < (c.rng (c.cenEmb (b, k))).2)
    (mem : ℕ → ℝ) (v : ℕ → ℕ → ℝ × ℝ) :
    IsProbabilityMeasure (startLaw c mem v) ∧ startLaw c mem v = (Fintype.card (Fin c.nblocks → Equiv.Perm (Fin c.ng)) : ℝ≥0∞) •
      (Measure.pi fun i : Fin c.numParams => oneLaw c i).restrict (monoBlocks c.cenEmb) := by
  have hfree : ∀ b k, c.fix (c.cenEmb (b, k)) = none := by
    intro b k
    by_contra hn
    exact huni (c.fix_cen_ordered ho k.2 hn).1
  have hrng : ∀ b k, c.rng (c.cenEmb (b, k)) = c.lagRange := fun b k => c.rng_cen ho b.2 k.2
  have hge : ∀ b k, c.numVar ≤ (c.cenEmb (b, k) : ℕ) := by
    intro b k
    change c.numVar ≤ c.cen b k
    unfold LineCfg.cen
    omega
  have hlag : ∀ b k, oneLaw c (c.cenEmb (b, k)) = normalised (volume.restrict (Ico c.lagRange.1 c.lagRange.2)) := by
    intro b k
    rw [oneLaw_line (hfree b k) (hge b k) (hlr b k), hrng]
  have hprod : (Measure.pi fun _ : Fin c.numParams => unif.prod (ProbabilityTheory.gaussianReal 0 1)).map
      (fun r (i : Fin c.numParams) => drawOne c i (r i)) = Measure.pi fun i : Fin c.numParams => oneLaw c i := by
    have : ∀ i : Fin c.numParams, SigmaFinite ((unif.prod (ProbabilityTheory.gaussianReal 0 1)).map (drawOne c i)) := fun i => by
      change SigmaFinite (oneLaw c i); infer_instance
    exact Measure.pi_map_pi (μ := fun _ : Fin c.numParams => unif.prod (ProbabilityTheory.gaussianReal 0 1))
      (f := fun i : Fin c.numParams => drawOne c i) fun i => (measurable_drawOne c i).aemeasurable
  obtain ⟨hae, hmap⟩ := map_sort c.cenEmb (σ := fun i : Fin c.numParams => oneLaw c i) (fun i => inferInstance)
    (fun b k => by
      rw [hlag]
      refine ⟨fun x => ?_⟩
      simp [normalised])
    (fun b k k' => by rw [hlag, hlag]) (sortVec c) (fun x i hi => (sortVec_spec c ho x).1 i hi)
    (fun x b => by
      have h := (sortVec_spec c ho x).2 b
      simp only [h]
      exact Tuple.monotone_sort fun k : Fin c.ng => x (c.cenEmb (b, k)))
    (fun x b => ⟨_, (sortVec_spec c ho x).2 b⟩)
  have hstart : startLaw c mem v = (Measure.pi fun i : Fin c.numParams => oneLaw c i).map (sortVec c) := by
   rw [← hprod]
   unfold startLaw
   rw [show startVec c mem v = sortVec c ∘ fun r (i : Fin c.numParams) => drawOne c i (r i) from
     funext fun r => startVec_ordered c ho hpos huni hr mem v r]
   rw [AEMeasurable.map_map_of_aemeasurable]
   · rw [hprod]; exact hae
   · exact (measurable_pi_lambda _ fun i : Fin c.numParams => (measurable_drawOne c i).comp (measurable_pi_apply i)).aemeasurable
  rw [hstart]
  exact ⟨Measure.isProbabilityMeasure_map hae, hmap⟩

theorem linePrior_ordered (c : LineCfg) (ho : c.typeLag = 0) (hpos : c.posivity = false) (hgap : c.gap = false) (huni : c.uniTf ≠ 2) :
    linePrior c = (Measure.pi fun i : Fin c.numParams => (oneBase c i).withDensity (oneDensity c i)).restrict (monoBlocks c.cenEmb) := by
  rw [linePrior_density c hpos hgap huni]
  have e : (fun y : Fin c.numParams → ℝ => priorOrder c y * ∏ i : Fin c.numParams, oneDensity c i (y i)) =
      (monoBlocks c.cenEmb).indicator fun y => ∏ i : Fin c.numParams, oneDensity c i (y i) := by
    funext y
    unfold priorOrder
    by_cases h : y ∈ monoBlocks c.cenEmb
    · rw [indicator_of_mem h, if_pos ((c.order_monoBlocks ho huni y).2 h), one_mul]
    · rw [indicator_of_notMem h, if_neg fun h' => h ((c.order_monoBlocks ho huni y).1 h'), zero_mul]
  rw [e, withDensity_indicator (measurableSet_monoBlocks _), ← restrict_withDensity (measurableSet_monoBlocks _)]
  congr 1
  exact pi_withDensity (fun i : Fin c.numParams => oneBase c i) (fun i => inferInstance) (fun i => oneDensity c i)
    (fun i => measurable_oneDensity c i) (fun i => inferInstance)

/-! ## One coordinate that is not a lag -/

theorem lag_facts (c : LineCfg) (ho : c.ordered = true) (huni : c.uniTf ≠ 2) (b : Fin c.nblocks) (k : Fin c.ng) :
    c.fix (c.cenEmb (b, k)) = none ∧ c.rng (c.cenEmb (b, k)) = c.lagRange ∧ c.numVar ≤ (c.cenEmb (b, k) : ℕ) := by
  refine ⟨?_, c.rng_cen ho b.2 k.2, ?_⟩
  · by_contra hn
    exact huni (c.fix_cen_ordered ho k.2 hn).1
  · change c.numVar ≤ c.cen b k
    unfold LineCfg.cen
    omega

theorem var_notMem (c : LineCfg) {i : Fin c.numParams} (hi : (i : ℕ) < c.numVar) : i ∉ range c.cenEmb := by
  rintro ⟨⟨b, k⟩, rfl⟩
  have : c.numVar ≤ (c.cenEmb (b, k) : ℕ) := by
    change c.numVar ≤ c.cen b k
    unfold LineCfg.cen
    omega
  omega

theorem ordered_coord (c : LineCfg) (ho : c.ordered = true) {ρ : Fin c.numParams → Measure ℝ} (hp : ∀ i, IsProbabilityMeasure (ρ i))
    (ha : ∀ b k, NullSingletonClass (ρ (c.cenEmb (b, k)))) (he : ∀ b k k', ρ (c.cenEmb (b, k)) = ρ (c.cenEmb (b, k')))
    (i : Fin c.numParams) (hi : i ∉ range c.cenEmb) {A : Set ℝ} (hA : MeasurableSet A) :
    (Fintype.card (Fin c.nblocks → Equiv.Perm (Fin c.ng)) : ℝ≥0∞) * (Measure.pi ρ).restrict (monoBlocks c.cenEmb) {x | x i ∈ A} = ρ i A := by
  obtain ⟨hae, hmap⟩ := map_sort c.cenEmb hp ha he (sortVec c) (fun x i hi => (sortVec_spec c ho x).1 i hi)
    (fun x b => by
      have h := (sortVec_spec c ho x).2 b
      simp only [h]
      exact Tuple.monotone_sort fun k : Fin c.ng => x (c.cenEmb (b, k)))
    (fun x b => ⟨_, (sortVec_spec c ho x).2 b⟩)
  have hE : MeasurableSet {x : Fin c.numParams → ℝ | x i ∈ A} := measurable_pi_apply i hA
  have h := congrArg (fun m => m {x : Fin c.numParams → ℝ | x i ∈ A}) hmap
  simp only [Measure.smul_apply, smul_eq_mul] at h
  rw [← h, Measure.map_apply_of_aemeasurable hae hE]
  have : sortVec c ⁻¹' {x | x i ∈ A} = (Function.eval i) ⁻¹' A := by
    ext x
    simp only [mem_preimage, mem_ofPred_eq, (sortVec_spec c ho x).1 i hi, Function.eval]
  rw [this, (measurePreserving_eval ρ i).measure_preimage hA.nullMeasurableSet]

theorem normalised_prob {μ : Measure ℝ} (h0 : μ univ ≠ 0) (h1 : μ univ ≠ ∞) : IsProbabilityMeasure (normalised μ) :=
  ⟨by simp [normalised, ENNReal.inv_mul_cancel h0 h1]⟩

/-- If the law of the sorted numbers is the prior, so is that of each parameter that is not a lag. -/
theorem factor_ordered (c : LineCfg) (ho : c.ordered = true) {σ ν : Fin c.numParams → Measure ℝ} (hσ : ∀ i, IsProbabilityMeasure (σ i))
    (hsa : ∀ b k, NullSingletonClass (σ (c.cenEmb (b, k)))) (hse : ∀ b k k', σ (c.cenEmb (b, k)) = σ (c.cenEmb (b, k')))
    (hν : ∀ i, ν i univ ≠ 0 ∧ ν i univ ≠ ∞)
    (hna : ∀ b k, NullSingletonClass (ν (c.cenEmb (b, k)))) (hne : ∀ b k k', ν (c.cenEmb (b, k)) = ν (c.cenEmb (b, k')))
    (h : (Fintype.card (Fin c.nblocks → Equiv.Perm (Fin c.ng)) : ℝ≥0∞) • (Measure.pi σ).restrict (monoBlocks c.cenEmb) =
      normalised ((Measure.pi ν).restrict (monoBlocks c.cenEmb)))
    (i : Fin c.numParams) (hi : i ∉ range c.cenEmb) {A : Set ℝ} (hA : MeasurableSet A) : σ i A * ν i univ = ν i A := by
  have hfin : ∀ i, IsFiniteMeasure (ν i) := fun i => ⟨lt_top_iff_ne_top.2 (hν i).2⟩
  have hρ : ∀ i, IsProbabilityMeasure (normalised (ν i)) := fun i => normalised_prob (hν i).1 (hν i).2
  have hscale : Measure.pi (fun i => normalised (ν i)) = (∏ i, (ν i univ)⁻¹) • Measure.pi ν :=
    pi_smul ν hfin (fun i => (ν i univ)⁻¹) fun i => ENNReal.inv_ne_top.2 (hν i).1
  set K : ℝ≥0∞ := (Fintype.card (Fin c.nblocks → Equiv.Perm (Fin c.ng)) : ℝ≥0∞) with hK
  set C : ℝ≥0∞ := ∏ i, (ν i univ)⁻¹ with hC
  set R := (Measure.pi ν).restrict (monoBlocks c.cenEmb) with hR
  have hρE : ∀ {A : Set ℝ}, MeasurableSet A → K * (C * R {x | x i ∈ A}) = normalised (ν i) A := by
    intro A hA
    have := ordered_coord c ho hρ (fun b k => by
      have := hna b k
      refine ⟨fun x => ?_⟩
      simp [normalised]) (fun b k k' => by rw [hne b k k']) i hi hA
    rw [hscale, Measure.restrict_smul, Measure.smul_apply, smul_eq_mul] at this
    exact this
  have hσE := ordered_coord c ho hσ hsa hse i hi hA
  have h1 := congrArg (fun m => m {x : Fin c.numParams → ℝ | x i ∈ A}) h
  simp only [Measure.smul_apply, smul_eq_mul, normalised] at h1
  rw [hσE] at h1
  have huniv : K * (C * R univ) = 1 := by
    have := hρE MeasurableSet.univ
    rw [measure_univ] at this
    simpa using this
  have hR0 : R univ ≠ 0 := by intro h0; rw [h0] at huniv; simp at huniv
  have hRt : R univ ≠ ∞ := by
    intro h0
    have hC0 : C ≠ 0 := Finset.prod_ne_zero_iff.2 fun j _ => ENNReal.inv_ne_zero.2 (hν j).2
    have hK0 : K ≠ 0 := by rw [hK]; exact_mod_cast Fintype.card_ne_zero
    rw [h0, ENNReal.mul_top hC0, ENNReal.mul_top hK0] at huniv
    exact absurd huniv (by simp)
  have hKC : K * C = (R univ)⁻¹ := by
    rw [← mul_assoc] at huniv
    exact ENNReal.eq_inv_of_mul_eq_one_left huniv
  have h2 := hρE hA
  rw [← mul_assoc, hKC, ← h1] at h2
  rw [h2]
  simp only [normalised, Measure.smul_apply, smul_eq_mul]
  rw [mul_comm, ← mul_assoc, ENNReal.mul_inv_cancel (hν i).1 (hν i).2, one_mul]

theorem line_factor {c : LineCfg} {i : ℕ} (hf : c.fix i = none) (hi : c.numVar ≤ i) :
    (oneBase c i).withDensity (oneDensity c i) = volume.restrict (Ico (c.rng i).1 (c.rng i).2) := by
  have hb : oneBase c i = volume := by simp [oneBase, hf]
  have hd : oneDensity c i = (Ico (c.rng i).1 (c.rng i).2).indicator 1 := by
    funext t
    simp [oneDensity, hf, Nat.not_lt.2 hi]
  rw [hb, hd, withDensity_indicator_one measurableSet_Ico]

theorem ordered_type {c : LineCfg} (ho : c.ordered = true) : c.typeLag = 0 := by
  unfold LineCfg.ordered at ho
  simp only [decide_eq_true_eq] at ho
  exact ho.1

theorem lag_range {c : LineCfg} (ho : c.ordered = true) (huni : c.uniTf ≠ 2)
    (hl : ∀ i < c.numParams, c.numVar ≤ i → c.fix i = none → (c.rng i).1 < (c.rng i).2) (b : Fin c.nblocks) (k : Fin c.ng) :
    (c.rng (c.cenEmb (b, k))).1 < (c.rng (c.cenEmb (b, k))).2 := by
  obtain ⟨h1, -, h3⟩ := lag_facts c ho huni b k
  exact hl _ (Fin.is_lt _) h3 h1

theorem startLaw_prob (c : LineCfg) (hpos : c.posivity = false) (huni : c.uniTf ≠ 2)
    (hr : ∀ i < c.numVar, (c.rng i).1 < (c.rng i).2)
    (hl : ∀ i < c.numParams, c.numVar ≤ i → c.fix i = none → (c.rng i).1 < (c.rng i).2) (mem : ℕ → ℝ) (v : ℕ → ℕ → ℝ × ℝ) :
    IsProbabilityMeasure (startLaw c mem v) := by
  cases ho : c.ordered with
  | true => exact (startLaw_ordered c ho hpos huni hr (lag_range ho huni hl) mem v).1
  | false =>
    rw [startLaw_pi c ho hpos huni hr mem v]
    infer_instance

end Mica
