import Verif.Proof.Invariance7
import Verif.Proof.Reversible

/-!
# Helper lemmas for C109: the line model's moves in terms of the parameters that are not copies
-/

open MeasureTheory Set
open scoped ENNReal

namespace Mica
namespace LineCfg
variable (c : LineCfg)

/-- Not a target of the copying of common lags and widths. -/
def Own (a : ℕ) : Prop := c.uniTf = 2 → ∀ p ∈ c.shared, p.1 ≠ a

theorem own_var (hs : c.SharedOk) {a : ℕ} (ha : a < c.numVar) : c.Own a := by
  rintro hu ⟨p, p'⟩ hp rfl
  obtain ⟨i, j, k, t, _, _, _, _, _, e, _⟩ := c.shared_spec hu hs hp
  simp only at ha
  omega

theorem own_line (hs : c.SharedOk) {i j o : ℕ} (hj : j < ownLines c i) (ho : o < c.blk) :
    c.Own (lineStart c i j + o) := c.own_not_target hs hj ho

theorem logPrior_congr (hs : c.SharedOk) {p q : ℕ → ℝ} (h : ∀ a, c.Own a → p a = q a) :
    logPrior c p = logPrior c q := by
  have hnv : (if c.uniVar then 3 else 3 * c.nl.length) = c.numVar := rfl
  unfold logPrior
  rw [hnv]
  congr 1
  · refine Finset.sum_congr rfl fun a ha => ?_
    rw [h a (c.own_var hs (by simpa using ha))]
  · refine Finset.sum_congr rfl fun i _ => Finset.sum_congr rfl fun j hj =>
      Finset.sum_congr rfl fun k hk => ?_
    have hk' : k < c.ng := by simpa using hk
    have hj' : j < ownLines c i := by simpa using hj
    rw [h _ (c.own_line hs hj' (by unfold blk; omega)),
      h _ (c.own_line hs hj' (by unfold blk; omega))]

theorem bounds_congr (hs : c.SharedOk) {w : ℕ} (hw : w < c.numParams) (hf : c.fix w = none)
    {p q : ℕ → ℝ} (h : ∀ a, c.Own a → a ≠ w → p a = q a) : c.bounds p w = c.bounds q w := by
  rcases c.bounds_cases w hw with hb | ⟨ho, b, hbn, k, hk, rfl, hb⟩
  · rw [hb, hb]
  · have hsame : ∀ k', k' < c.ng → k' ≠ k → p (c.cen b k') = q (c.cen b k') := by
      intro k' hk' hne
      refine h _ ?_ fun e => hne (c.cen_inj hk' hk e).2
      intro hu
      obtain ⟨j', hj', hb'⟩ := c.free_first hs hu hbn ⟨k, 1, hk, Or.inl rfl, rfl⟩ hf
      rw [hb']
      exact c.not_target hs hj' (by unfold blk; omega) hu
    rw [hb p, hb q]
    congr 1
    · split
      · rfl
      · rw [hsame (k - 1) (by omega) (by omega)]
    · split
      · rename_i hk1; rw [hsame (k + 1) hk1 (by omega)]
      · rfl

theorem moveLogH_congr (hs : c.SharedOk) (hg : c.gap → ∀ i < c.nl.length, 0 < c.nl.getD i 0)
    {w : ℕ} (hw : w < c.numParams) (hf : c.fix w = none) {p q V U : ℕ → ℝ}
    (h : ∀ a, c.Own a → p a = q a) (hV : ∀ a, c.Own a → V a = U a) :
    c.moveLogH p V w = c.moveLogH q U w := by
  by_cases hv : w < c.numVar
  · simp only [moveLogH, hv, if_true, h w (c.own_var hs hv), hV w (c.own_var hs hv)]
  · rcases c.moveLogH_line hs hg hw (by omega) hf with ⟨hz, -⟩ | ⟨i, j, k, hi, hj, hk, hz, -⟩
    · rw [hz, hz]
    · rw [hz, hz, hV _ (c.own_line hs hj (by unfold blk; omega)),
        hV _ (c.own_line hs hj (by unfold blk; omega))]

/-- The balance of a move, without the copying. -/
theorem log_balance' (hs : c.SharedOk) (hg : c.gap → ∀ i < c.nl.length, 0 < c.nl.getD i 0)
    (pm : ℕ → ℝ) {w : ℕ} (x : ℝ) (hw : w < c.numParams) (hf : c.fix w = none) :
    ∃ l l', c.moveLogH pm (Function.update pm w x) w = .ok l ∧
      c.moveLogH (Function.update pm w x) pm w = .ok l' ∧
      logPrior c pm + min 0 l = logPrior c (Function.update pm w x) + min 0 l' := by
  obtain ⟨q, hq, h1, -⟩ := c.share_ok hs (Function.update pm w x)
  have hl : ∃ l, c.moveLogH pm (Function.update pm w x) w = .ok l := by
    by_cases hv : w < c.numVar
    · exact ⟨0 - c.varTerm w (pm w) + c.varTerm w (Function.update pm w x w), by
        simp only [moveLogH, hv, if_true]⟩
    · rcases c.moveLogH_line hs hg hw (by omega) hf with ⟨hz, -⟩ | ⟨i, j, k, hi, hj, hk, hz, -⟩
      · exact ⟨_, hz _ _⟩
      · exact ⟨_, hz _ _⟩
  obtain ⟨l, hl⟩ := hl
  obtain ⟨l', hl', hb⟩ := c.log_balance hs hg hw hf hq hl
  refine ⟨l, l', hl, ?_, ?_⟩
  · rw [← hl']
    refine c.moveLogH_congr hs hg hw hf (fun a ha => (h1 a ha).symm) fun a ha => ?_
    by_cases e : a = w
    · rw [e, Function.update_self]
    · rw [Function.update_of_ne e, h1 a ha, Function.update_of_ne e]
  · rw [hb, c.logPrior_congr hs (fun a ha => h1 a ha)]

/-! ## Copies -/

theorem mem_shared_iff (hs : c.SharedOk) (hu : c.uniTf = 2) {a s : ℕ} : (a, s) ∈ c.shared ↔
    ∃ i j k t, 1 ≤ i ∧ j < c.nl.getD i 0 ∧ k < c.ng ∧ (t = 2 ∨ t = 3) ∧
      a = lineStart c i j + (3 * k + t) ∧ s = lineStart c 0 j + (3 * k + t) := by
  constructor
  · intro h
    obtain ⟨i, j, k, t, hi, hj, _, hk, ht, h1, h2⟩ := c.shared_spec hu hs h
    refine ⟨i, j, k, t + 1, hi, hj, hk, by omega, ?_, ?_⟩
    · rw [h1, c.lineStart_eq]; omega
    · rw [h2, c.lineStart_eq]; omega
  · rintro ⟨i, j, k, t, hi, hj, hk, ht, rfl, rfl⟩
    have := c.shared_mk hu hs hi hj hk (t := t - 1) (by omega)
    rw [c.lineStart_eq, c.lineStart_eq]
    convert this using 2 <;> omega

theorem shared_lt (hs : c.SharedOk) (hu : c.uniTf = 2) {a s : ℕ} (h : (a, s) ∈ c.shared) :
    a < c.numParams ∧ s < c.numParams := by
  obtain ⟨i, j, k, t, hi, hj, hj0, hk, ht, rfl, rfl⟩ := c.shared_spec hu hs h
  exact ⟨c.addr_lt (c.bno_lt _ _ hj) (by unfold blk; omega),
    c.addr_lt (c.bno_lt _ _ hj0) (by unfold blk; omega)⟩

theorem sourceOf_own (hs : c.SharedOk) {a : Fin c.numParams} (h : c.Own a) : sourceOf c a = a := by
  unfold sourceOf
  rw [dif_neg]
  rintro ⟨s, hu, he⟩
  exact h hu _ ((c.mem_shared_iff hs hu).2 he) rfl

theorem sourceOf_shared (hs : c.SharedOk) (hu : c.uniTf = 2) {a : Fin c.numParams} {s : ℕ}
    (h : ((a : ℕ), s) ∈ c.shared) : ((sourceOf c a : Fin c.numParams) : ℕ) = s := by
  have hex : ∃ s : Fin c.numParams, c.uniTf = 2 ∧ ∃ i j k t, 1 ≤ i ∧ j < c.nl.getD i 0 ∧ k < c.ng ∧
      (t = 2 ∨ t = 3) ∧ (a : ℕ) = lineStart c i j + (3 * k + t) ∧
      (s : ℕ) = lineStart c 0 j + (3 * k + t) :=
    ⟨⟨s, (c.shared_lt hs hu h).2⟩, hu, (c.mem_shared_iff hs hu).1 h⟩
  unfold sourceOf
  rw [dif_pos hex]
  exact c.shared_fun hu hs _ ((c.mem_shared_iff hs hu).2 hex.choose_spec.2) _ h rfl

theorem sourceOf_idem (hs : c.SharedOk) (a : Fin c.numParams) :
    c.Own (sourceOf c a) ∧ sourceOf c (sourceOf c a) = sourceOf c a := by
  have h : c.Own (sourceOf c a) := by
    by_cases ha : c.Own a
    · rw [c.sourceOf_own hs ha]; exact ha
    · unfold Own at ha
      push Not at ha
      obtain ⟨hu, ⟨p, s⟩, hp, e⟩ := ha
      simp only at e
      subst e
      rw [c.sourceOf_shared hs hu hp]
      exact fun _ p' hp' => (c.shared_source hu hs _ hp p' hp').symm
  exact ⟨h, c.sourceOf_own hs h⟩

/-- Copying, as a map of vectors. -/
noncomputable def copyVec (y : Fin c.numParams → ℝ) : Fin c.numParams → ℝ := fun a => y (sourceOf c a)

theorem extendVec_lt {n : ℕ} (x : Fin n → ℝ) (i : Fin n) : extendVec x i = x i := by
  simp [extendVec]

theorem extendVec_update {n : ℕ} (x : Fin n → ℝ) (w : Fin n) (t : ℝ) :
    extendVec (Function.update x w t) = Function.update (extendVec x) w t := by
  funext i
  by_cases h : i = w
  · subst h; rw [extendVec_lt, Function.update_self, Function.update_self]
  · rw [Function.update_of_ne h]
    unfold extendVec
    split
    · rw [Function.update_of_ne]
      intro e; exact h (by rw [← e])
    · rfl

theorem share_copyVec (hs : c.SharedOk) (x : Fin c.numParams → ℝ) : ∃ q,
    c.share (extendVec x) = .ok q ∧ (fun i : Fin c.numParams => q i) = c.copyVec x := by
  obtain ⟨q, hq, h1, h2⟩ := c.share_ok hs (extendVec x)
  refine ⟨q, hq, ?_⟩
  funext a
  unfold copyVec
  by_cases ha : c.Own a
  · rw [h1 a ha, extendVec_lt, c.sourceOf_own hs ha]
  · unfold Own at ha
    push Not at ha
    obtain ⟨hu, ⟨p, s⟩, hp, e⟩ := ha
    simp only at e
    subst e
    rw [h2 hu _ hp]
    simp only
    rw [← c.sourceOf_shared hs hu hp, extendVec_lt]

theorem extend_copyVec (hs : c.SharedOk) (y : Fin c.numParams → ℝ) (a : ℕ) (ha : c.Own a) :
    extendVec (c.copyVec y) a = extendVec y a := by
  unfold extendVec
  split
  · rename_i h
    unfold copyVec
    rw [c.sourceOf_own hs (a := ⟨a, h⟩) ha]
  · rfl

theorem copyVec_update (hs : c.SharedOk) (y : Fin c.numParams → ℝ) (w : Fin c.numParams) (t : ℝ) :
    c.copyVec (Function.update (c.copyVec y) w t) = c.copyVec (Function.update y w t) := by
  funext a
  unfold copyVec
  by_cases h : sourceOf c a = w
  · rw [h, Function.update_self, Function.update_self]
  · rw [Function.update_of_ne h, Function.update_of_ne h, (c.sourceOf_idem hs a).2]

theorem measurable_copyVec : Measurable c.copyVec :=
  measurable_pi_iff.2 fun _ => measurable_pi_apply _

end LineCfg
end Mica
