import Verif.Spec.Scale
import Verif.Proof.Data
import Mathlib.Tactic.FieldSimp
import Mathlib.Tactic.Positivity

namespace Mica

theorem foldl_add_eq_real (f : List ℝ) (a : ℝ) : f.foldl (fun s x => s + x) a = a + f.sum := by
  induction f generalizing a with
  | nil => simp
  | cons x f ih => rw [List.foldl_cons, ih, List.sum_cons, add_assoc]

theorem meanC_eq (f : List ℝ) : meanC f = curveMean f := by
  unfold meanC curveMean
  rw [foldl_add_eq_real, zero_add]

theorem maxC_ge (f0 : ℝ) (f : List ℝ) : f0 ≤ maxC f0 f ∧ ∀ x ∈ f, x ≤ maxC f0 f := by
  induction f generalizing f0 with
  | nil => simp [maxC]
  | cons y f ih =>
    have h := ih (if f0 < y then y else f0)
    have e : maxC f0 (y :: f) = maxC (if f0 < y then y else f0) f := rfl
    rw [e]
    have h1 : f0 ≤ (if f0 < y then y else f0) := by split_ifs with hh <;> linarith
    have h2 : y ≤ (if f0 < y then y else f0) := by split_ifs with hh <;> linarith
    refine ⟨h1.trans h.1, fun x hx => ?_⟩
    rcases List.mem_cons.1 hx with rfl | hx
    · exact h2.trans h.1
    · exact h.2 x hx

theorem maxC_mem (f0 : ℝ) (f : List ℝ) : maxC f0 f ∈ f0 :: f := by
  induction f generalizing f0 with
  | nil => simp [maxC]
  | cons y f ih =>
    have e : maxC f0 (y :: f) = maxC (if f0 < y then y else f0) f := rfl
    have h := ih (if f0 < y then y else f0)
    rw [e]
    split_ifs at h ⊢ with hh
    · exact List.mem_cons_of_mem _ h
    · rcases List.mem_cons.1 h with h | h
      · rw [h]; simp
      · simp [h]

theorem minC_le (f0 : ℝ) (f : List ℝ) : minC f0 f ≤ f0 ∧ ∀ x ∈ f, minC f0 f ≤ x := by
  induction f generalizing f0 with
  | nil => simp [minC]
  | cons y f ih =>
    have h := ih (if f0 > y then y else f0)
    have e : minC f0 (y :: f) = minC (if f0 > y then y else f0) f := rfl
    rw [e]
    have h1 : (if f0 > y then y else f0) ≤ f0 := by split_ifs with hh <;> linarith
    have h2 : (if f0 > y then y else f0) ≤ y := by split_ifs with hh <;> linarith
    refine ⟨h.1.trans h1, fun x hx => ?_⟩
    rcases List.mem_cons.1 hx with rfl | hx
    · exact h.1.trans h2
    · exact h.2 x hx

theorem minC_mem (f0 : ℝ) (f : List ℝ) : minC f0 f ∈ f0 :: f := by
  induction f generalizing f0 with
  | nil => simp [minC]
  | cons y f ih =>
    have e : minC f0 (y :: f) = minC (if f0 > y then y else f0) f := rfl
    have h := ih (if f0 > y then y else f0)
    rw [e]
    split_ifs at h ⊢ with hh
    · exact List.mem_cons_of_mem _ h
    · rcases List.mem_cons.1 h with h | h
      · rw [h]; simp
      · simp [h]

theorem maxC_mem' (f0 : ℝ) (f : List ℝ) : maxC f0 (f0 :: f) ∈ f0 :: f := by
  simpa using maxC_mem f0 (f0 :: f)

theorem minC_mem' (f0 : ℝ) (f : List ℝ) : minC f0 (f0 :: f) ∈ f0 :: f := by
  simpa using minC_mem f0 (f0 :: f)

theorem halfRange_code (f0 : ℝ) (f : List ℝ) :
    HalfRange (f0 :: f) ((maxC f0 (f0 :: f) - minC f0 (f0 :: f)) / 2) := by
  refine ⟨⟨_, maxC_mem' f0 f, _, minC_mem' f0 f, rfl⟩, fun x hx y hy => ?_⟩
  have h1 := (maxC_ge f0 (f0 :: f)).2 x hx
  have h2 := (minC_le f0 (f0 :: f)).2 y hy
  linarith

theorem range_zero (f0 : ℝ) (f : List ℝ) :
    (maxC f0 (f0 :: f) - minC f0 (f0 :: f)) / 2 = 0 ↔ ¬ ∃ x ∈ f0 :: f, ∃ y ∈ f0 :: f, x ≠ y := by
  constructor
  · rintro h ⟨x, hx, y, hy, hxy⟩
    apply hxy
    have h1 := (maxC_ge f0 (f0 :: f)).2 x hx
    have h2 := (minC_le f0 (f0 :: f)).2 y hy
    have h3 := (maxC_ge f0 (f0 :: f)).2 y hy
    have h4 := (minC_le f0 (f0 :: f)).2 x hx
    linarith
  · intro h
    by_contra hne
    exact h ⟨_, maxC_mem' f0 f, _, minC_mem' f0 f, fun he => hne (by rw [he]; ring)⟩

theorem smallMean_code (f0 : ℝ) (f : List ℝ) :
    meanC (f0 :: f) < (maxC f0 (f0 :: f) - minC f0 (f0 :: f)) / 2 / 100 ↔ SmallMean (f0 :: f) := by
  rw [meanC_eq]
  constructor
  · intro h; exact ⟨_, maxC_mem' f0 f, _, minC_mem' f0 f, h⟩
  · rintro ⟨x, hx, y, hy, h⟩
    have h1 := (maxC_ge f0 (f0 :: f)).2 x hx
    have h2 := (minC_le f0 (f0 :: f)).2 y hy
    linarith

open Classical in
theorem checkCurve_eq {f : List ℝ} (hf : f ≠ []) (b : Bool) :
    checkCurve f b = if Usable f then .ok (b || decide (SmallMean f)) else .exit := by
  obtain ⟨f0, fs, rfl⟩ := List.exists_cons_of_ne_nil hf
  unfold checkCurve Usable
  simp only [range_zero, smallMean_code]
  rw [meanC_eq]
  by_cases h1 : curveMean (f0 :: fs) ≤ 0
  · simp [h1, not_lt.2 h1]
  · by_cases h2 : ∃ x ∈ f0 :: fs, ∃ y ∈ f0 :: fs, x ≠ y
    · by_cases h3 : SmallMean (f0 :: fs)
      · simp only [h1, h2, h3, not_true, if_false, if_true, not_le.1 h1, and_self, decide_true, Bool.or_true]
      · simp only [h1, h2, h3, not_true, if_false, if_true, not_le.1 h1, and_self, decide_false, Bool.or_false]
    · simp only [h1, h2, not_false_eq_true, if_false, if_true, and_false]

/-- The checks as one loop over the light curves. -/
noncomputable def checkList : List (List Row) → Bool → Res Bool
  | [], b => .ok b
  | r :: rs, b => (checkCurve (fluxes r) b).bind (checkList rs)

theorem Res.bind_assoc' {α β γ : Type} (x : Res α) (f : α → Res β) (g : β → Res γ) :
    (x.bind f).bind g = x.bind fun a => (f a).bind g := by cases x <;> rfl

theorem checkList_append (l1 l2 : List (List Row)) (b : Bool) :
    checkList (l1 ++ l2) b = (checkList l1 b).bind (checkList l2) := by
  induction l1 generalizing b with
  | nil => rfl
  | cons r rs ih =>
    rw [List.cons_append, checkList, checkList, Res.bind_assoc']
    congr 1
    funext a
    exact ih a

theorem checkLines_eq (ls : List (List Row)) (b : Bool) :
    checkLines ls b = checkList (ls.filter fun l => !l.isEmpty) b := by
  induction ls generalizing b with
  | nil => rfl
  | cons l ls ih =>
    rw [checkLines]
    by_cases h : l = []
    · simp [h, ih]
    · have : (!l.isEmpty) = true := by simpa using h
      rw [if_neg h, List.filter_cons, if_pos this, checkList]
      congr 1
      funext a
      exact ih a

theorem checkSets_eq (vmap : Bool) (sets : List FSet) (b : Bool) :
    checkSets vmap sets b = checkList (normCurves vmap sets) b := by
  induction sets generalizing b with
  | nil => rfl
  | cons s ss ih =>
    have e : normCurves vmap (s :: ss)
        = (if vmap then [] else [s.con]) ++ ((s.lines.filter fun l => !l.isEmpty) ++ normCurves vmap ss) := by
      simp [normCurves]
    rw [e, checkSets]
    cases vmap with
    | true =>
      simp only [if_true, List.nil_append]
      rw [checkList_append, checkLines_eq]
      congr 1
      funext a; exact ih a
    | false =>
      simp only [Bool.false_eq_true, if_false, List.singleton_append, checkList]
      congr 1
      funext a
      rw [checkList_append, checkLines_eq]
      congr 1
      funext a; exact ih a

open Classical in
theorem checkList_ok {rs : List (List Row)} (hne : ∀ r ∈ rs, r ≠ []) (b : Bool) :
    checkList rs b = if ∀ r ∈ rs, Usable (fluxes r)
      then .ok (b || decide (∃ r ∈ rs, SmallMean (fluxes r))) else .exit := by
  induction rs generalizing b with
  | nil => simp [checkList]
  | cons r rs ih =>
    have hr : fluxes r ≠ [] := by simpa [fluxes] using hne r (by simp)
    rw [checkList, checkCurve_eq hr]
    by_cases h1 : Usable (fluxes r)
    · rw [if_pos h1]
      show checkList rs _ = _
      rw [ih fun x hx => hne x (by simp [hx])]
      by_cases h2 : ∀ r ∈ rs, Usable (fluxes r)
      · rw [if_pos h2, if_pos (by simpa using ⟨h1, h2⟩)]
        congr 1
        rw [Bool.or_assoc, ← Bool.decide_or]
        congr 1
        simp
      · rw [if_neg h2, if_neg fun h => h2 fun x hx => h x (by simp [hx])]
    · rw [if_neg h1, if_neg fun h => h1 (h r (by simp))]
      rfl

theorem scaleOf_pos {norm noscale : Bool} {f0 : ℝ} {f : List ℝ} (h : Usable (f0 :: f)) :
    0 < scaleOf norm noscale f0 (f0 :: f) := by
  unfold scaleOf
  split_ifs
  · norm_num
  · have h1 := (range_zero f0 f).not.2 (not_not.2 h.2)
    have h2 := (maxC_ge f0 (f0 :: f)).2 f0 (by simp)
    have h3 := (minC_le f0 (f0 :: f)).2 f0 (by simp)
    have h4 : 0 ≤ (maxC f0 (f0 :: f) - minC f0 (f0 :: f)) / 2 := by linarith
    exact lt_of_le_of_ne h4 (Ne.symm h1)
  · rw [meanC_eq]; exact h.1

theorem scaleCurve_ok {norm noscale : Bool} {r : List Row} {c : NCurve}
    (h : scaleCurve norm noscale r = .ok c) (hu : Usable (fluxes r)) :
    Scaled r c ∧ (noscale = true → c.scale = 1) ∧ (noscale = false → norm = false → c.scale = curveMean (fluxes r)) ∧
      (noscale = false → norm = true → HalfRange (fluxes r) c.scale) ∧
      c.rows = r.map (fun x => (x.1, x.2.1 / c.scale, x.2.2 / c.scale)) := by
  unfold scaleCurve at h
  cases hf : fluxes r with
  | nil => rw [hf] at h; cases h
  | cons f0 fs =>
    rw [hf] at h hu
    simp only [Res.ok.injEq] at h
    have hp := scaleOf_pos (norm := norm) (noscale := noscale) hu
    have hs : c.scale = scaleOf norm noscale f0 (f0 :: fs) := by rw [← h]
    have hr : c.rows = r.map (fun x => (x.1, x.2.1 / c.scale, x.2.2 / c.scale)) := by rw [hs, ← h]
    rw [← hs] at hp
    refine ⟨⟨hp, ?_⟩, ?_, ?_, ?_, hr⟩
    · rw [hr, List.forall₂_map_right_iff, List.forall₂_same]
      intro x _
      refine ⟨rfl, ?_, ?_, ?_⟩
      · unfold printed; field_simp
      · unfold printed; field_simp
      · show x.2.2 / c.scale / (x.2.1 / c.scale) = x.2.2 / x.2.1
        rw [div_div_div_cancel_right₀ hp.ne']
    · rintro rfl; rw [hs]; rfl
    · rintro rfl rfl
      rw [hs, ← meanC_eq]
      simp [scaleOf]
    · rintro rfl rfl
      rw [hs]
      simpa [scaleOf] using halfRange_code f0 fs

theorem scaleCurve_some {norm noscale : Bool} {r : List Row} (h : r ≠ []) :
    ∃ c, scaleCurve norm noscale r = .ok c := by
  obtain ⟨x, r, rfl⟩ := List.exists_cons_of_ne_nil h
  exact ⟨_, rfl⟩

/-- What holds for a line light curve. -/
def LineRel (norm noscale : Bool) (l : List Row) (c : NCurve) : Prop :=
  (l = [] → c.rows = [] ∧ c.scale = 1) ∧ (l ≠ [] → scaleCurve norm noscale l = .ok c)

theorem scaleLines_spec {norm noscale : Bool} (i j : ℕ) (ls : List (List Row)) (sc : Option ℝ) :
    ∃ cs nf sc', scaleLines norm noscale i j ls sc = .ok (cs, nf, sc') ∧
      List.Forall₂ (LineRel norm noscale) ls cs ∧
      nf = ((ls.zip cs).zipIdx j).filterMap (fun p =>
        if p.1.1 = [] then none else some (i, p.2 + 1, some p.1.2.scale)) := by
  induction ls generalizing j sc with
  | nil => exact ⟨[], [], sc, rfl, .nil, by simp⟩
  | cons l ls ih =>
    by_cases h : l = []
    · obtain ⟨cs, nf, sc', h1, h2, h3⟩ := ih (j + 1) sc
      refine ⟨⟨[], 1, 0, 0⟩ :: cs, nf, sc', ?_, .cons ⟨fun _ => ⟨rfl, rfl⟩, fun hn => absurd h hn⟩ h2, ?_⟩
      · simp [scaleLines, h, h1]
      · rw [List.zip_cons_cons, List.zipIdx_cons, List.filterMap_cons]
        simp [h, h3]
    · obtain ⟨c, hc⟩ := scaleCurve_some (norm := norm) (noscale := noscale) h
      obtain ⟨cs, nf, sc', h1, h2, h3⟩ := ih (j + 1) (some c.scale)
      refine ⟨c :: cs, (i, j + 1, some c.scale) :: nf, sc', ?_, .cons ⟨fun hn => absurd hn h, fun _ => hc⟩ h2, ?_⟩
      · simp [scaleLines, h, h1, hc]
      · rw [List.zip_cons_cons, List.zipIdx_cons, List.filterMap_cons]
        simp [h, h3]

/-- What holds for a data set. -/
def SetRel (vmap norm noscale : Bool) (s : FSet) (n : NSet) : Prop :=
  (vmap = true → n.con.rows = s.con ∧ n.con.scale = 1) ∧
  (vmap = false → scaleCurve norm noscale s.con = .ok n.con) ∧
  List.Forall₂ (LineRel norm noscale) s.lines n.lines

theorem scaleSets_spec {vmap norm noscale : Bool} (i : ℕ) (sets : List FSet) (sc : Option ℝ)
    (hne : vmap = false → ∀ s ∈ sets, s.con ≠ []) :
    ∃ ns nf, scaleSets vmap norm noscale i sets sc = .ok (ns, nf) ∧
      List.Forall₂ (SetRel vmap norm noscale) sets ns ∧
      (vmap = false → nf = ((sets.zip ns).zipIdx i).flatMap (fun p =>
        (p.2, 0, some p.1.2.con.scale) :: ((p.1.1.lines.zip p.1.2.lines).zipIdx).filterMap (fun q =>
          if q.1.1 = [] then none else some (p.2, q.2 + 1, some q.1.2.scale)))) := by
  induction sets generalizing i sc with
  | nil => exact ⟨[], [], rfl, .nil, by simp⟩
  | cons s ss ih =>
    cases vmap with
    | true =>
      obtain ⟨cs, nf, sc', h1, h2, h3⟩ := scaleLines_spec (norm := norm) (noscale := noscale) i 0 s.lines sc
      obtain ⟨ns, nf', h4, h5, h6⟩ := ih (i + 1) sc' (by simp)
      refine ⟨⟨⟨s.con, 1, 0, 0⟩, cs⟩ :: ns, (i, 0, sc) :: (nf ++ nf'), ?_, .cons ⟨fun _ => ⟨rfl, rfl⟩, by simp, h2⟩ h5,
        by simp⟩
      simp [scaleSets, scaleCon, h1, h4]
    | false =>
      obtain ⟨c, hc⟩ := scaleCurve_some (norm := norm) (noscale := noscale) (hne rfl s (by simp))
      obtain ⟨cs, nf, sc', h1, h2, h3⟩ :=
        scaleLines_spec (norm := norm) (noscale := noscale) i 0 s.lines (some c.scale)
      obtain ⟨ns, nf', h4, h5, h6⟩ := ih (i + 1) sc' (fun _ x hx => hne rfl x (by simp [hx]))
      refine ⟨⟨c, cs⟩ :: ns, (i, 0, some c.scale) :: (nf ++ nf'), ?_, .cons ⟨by simp, fun _ => hc, h2⟩ h5, ?_⟩
      · simp [scaleSets, scaleCon, hc, h1, h4]
      · intro _
        rw [h6 rfl, h3]
        simp [List.zipIdx_cons]

end Mica
