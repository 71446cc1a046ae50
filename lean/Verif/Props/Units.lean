import Verif.Props.Scale

/-!
# C95: the units of flux do not matter

Multiplying the fluxes and errors of a light curve by a positive constant, a different one for every light curve,
leaves the normalised data unchanged; only the recorded factors change (src/read.c:1087-1332).
-/

namespace Mica

/-- A light curve with fluxes and errors multiplied by `b`. -/
noncomputable def inUnits (b : ℝ) (r : List Row) : List Row := r.map fun x => (x.1, b * x.2.1, b * x.2.2)

/-- The lines of a data set, from number `j`, with line number `j` multiplied by `b j`. -/
noncomputable def linesIn (b : ℕ → ℝ) : ℕ → List (List Row) → List (List Row)
  | _, [] => []
  | j, l :: ls => inUnits (b j) l :: linesIn b (j + 1) ls

/-- The data sets, from number `i`: light curve `j` of set `i` (0 the continuum) is multiplied by `b i j`.  In the
mode without continuum nothing is read of it. -/
noncomputable def setsIn (vmap : Bool) (b : ℕ → ℕ → ℝ) : ℕ → List FSet → List FSet
  | _, [] => []
  | i, s :: ss => ⟨if vmap then s.con else inUnits (b i 0) s.con, linesIn (b i) 1 s.lines⟩ :: setsIn vmap b (i + 1) ss

open Classical in
/-- A normalised light curve whose factor is multiplied by `b` (that of a light curve without points is 1). -/
noncomputable def NCurve.times (b : ℝ) (c : NCurve) : NCurve := if c.rows = [] then c else { c with scale := b * c.scale }

/-- The lines of a normalised set. -/
noncomputable def nlinesIn (b : ℕ → ℝ) : ℕ → List NCurve → List NCurve
  | _, [] => []
  | j, l :: ls => l.times (b j) :: nlinesIn b (j + 1) ls

/-- The normalised sets with the factors of the new units. -/
noncomputable def nsetsIn (vmap : Bool) (b : ℕ → ℕ → ℝ) : ℕ → List NSet → List NSet
  | _, [] => []
  | i, s :: ss => ⟨if vmap then s.con else s.con.times (b i 0), nlinesIn (b i) 1 s.lines⟩ :: nsetsIn vmap b (i + 1) ss

/-- A line of the file of factors in the new units. -/
noncomputable def NormLine.times (b : ℕ → ℕ → ℝ) (l : NormLine) : NormLine := (l.1, l.2.1, l.2.2.map (b l.1 l.2.1 * ·))

theorem foldl_mulsum (b : ℝ) (f : List ℝ) (s : ℝ) :
    (f.map (b * ·)).foldl (fun s x => s + x) (b * s) = b * f.foldl (fun s x => s + x) s := by
  induction f generalizing s with
  | nil => rfl
  | cons x f ih => simp only [List.map_cons, List.foldl_cons, ← mul_add, ih]

theorem meanC_mul (b : ℝ) (f : List ℝ) : meanC (f.map (b * ·)) = b * meanC f := by
  have := foldl_mulsum b f 0
  rw [mul_zero] at this
  rw [meanC, meanC, this, List.length_map, mul_div_assoc]

theorem maxC_mul {b : ℝ} (hb : 0 < b) (f0 : ℝ) (f : List ℝ) : maxC (b * f0) (f.map (b * ·)) = b * maxC f0 f := by
  unfold maxC
  induction f generalizing f0 with
  | nil => rfl
  | cons x f ih =>
    simp only [List.map_cons, List.foldl_cons]
    rw [← ih]
    congr 1
    simp only [mul_lt_mul_iff_right₀ hb]
    split <;> rfl

theorem minC_mul {b : ℝ} (hb : 0 < b) (f0 : ℝ) (f : List ℝ) : minC (b * f0) (f.map (b * ·)) = b * minC f0 f := by
  unfold minC
  induction f generalizing f0 with
  | nil => rfl
  | cons x f ih =>
    simp only [List.map_cons, List.foldl_cons]
    rw [← ih]
    congr 1
    simp only [gt_iff_lt, mul_lt_mul_iff_right₀ hb]
    split <;> rfl

theorem fluxes_inUnits (b : ℝ) (r : List Row) : fluxes (inUnits b r) = (fluxes r).map (b * ·) := by
  simp only [fluxes, inUnits, List.map_map, Function.comp_def]

theorem inUnits_eq_nil (b : ℝ) (r : List Row) : inUnits b r = [] ↔ r = [] := by
  simp [inUnits]

theorem checkCurve_mul {b : ℝ} (hb : 0 < b) (f : List ℝ) (flag : Bool) :
    checkCurve (f.map (b * ·)) flag = checkCurve f flag := by
  rcases f with _ | ⟨f0, fs⟩
  · rfl
  · unfold checkCurve
    simp only [List.map_cons]
    have e1 : meanC (b * f0 :: fs.map (b * ·)) = b * meanC (f0 :: fs) := meanC_mul b (f0 :: fs)
    have e2 : maxC (b * f0) (b * f0 :: fs.map (b * ·)) = b * maxC f0 (f0 :: fs) := maxC_mul hb f0 (f0 :: fs)
    have e3 : minC (b * f0) (b * f0 :: fs.map (b * ·)) = b * minC f0 (f0 :: fs) := minC_mul hb f0 (f0 :: fs)
    rw [e1, e2, e3]
    have h1 : b * meanC (f0 :: fs) ≤ 0 ↔ meanC (f0 :: fs) ≤ 0 := by
      constructor
      · intro h; by_contra h2; exact absurd h (not_le.2 (mul_pos hb (not_le.1 h2)))
      · intro h; exact mul_nonpos_of_nonneg_of_nonpos hb.le h
    have h2 : (b * maxC f0 (f0 :: fs) - b * minC f0 (f0 :: fs)) / 2 = b * ((maxC f0 (f0 :: fs) - minC f0 (f0 :: fs)) / 2) := by
      ring
    have h3 : b * meanC (f0 :: fs) < (b * maxC f0 (f0 :: fs) - b * minC f0 (f0 :: fs)) / 2 / 100 ↔
        meanC (f0 :: fs) < (maxC f0 (f0 :: fs) - minC f0 (f0 :: fs)) / 2 / 100 := by
      rw [h2, mul_div_assoc, mul_lt_mul_iff_right₀ hb]
    simp only [h1, h3]
    rw [h2]
    simp only [mul_eq_zero, hb.ne', false_or]

theorem checkLines_in {b : ℕ → ℝ} (hb : ∀ j, 0 < b j) (j : ℕ) (ls : List (List Row)) (flag : Bool) :
    checkLines (linesIn b j ls) flag = checkLines ls flag := by
  induction ls generalizing j flag with
  | nil => rfl
  | cons l ls ih =>
    rw [linesIn, checkLines, checkLines, fluxes_inUnits, checkCurve_mul (hb j), ih]
    simp only [inUnits_eq_nil]
    split
    · rfl
    · congr 1
      funext f
      exact ih _ _

/-- C95: the checks of the data do not depend on the units: the same verdict, the same choice of the kind of
normalisation. -/
theorem C95_check (vmap : Bool) (b : ℕ → ℕ → ℝ) (hb : ∀ i j, 0 < b i j) (i : ℕ) (sets : List FSet) (flag : Bool) :
    checkSets vmap (setsIn vmap b i sets) flag = checkSets vmap sets flag := by
  induction sets generalizing i flag with
  | nil => rfl
  | cons s ss ih =>
    rw [setsIn, checkSets, checkSets]
    simp only [checkLines_in (hb i)]
    cases vmap
    · simp only [Bool.false_eq_true, if_false, fluxes_inUnits, checkCurve_mul (hb i 0)]
      congr 1
      funext f
      congr 1
      funext f
      exact ih _ _
    · simp only [if_true]
      congr 1
      funext f
      exact ih _ _

theorem scaleCurve_in {b : ℝ} (hb : 0 < b) (norm : Bool) (r : List Row) (c : NCurve)
    (h : scaleCurve norm false r = .ok c) : scaleCurve norm false (inUnits b r) = .ok (c.times b) := by
  unfold scaleCurve at h ⊢
  rw [fluxes_inUnits]
  rcases hf : fluxes r with _ | ⟨f0, fs⟩
  · rw [hf] at h; cases h
  · rw [hf] at h
    simp only [List.map_cons] at h ⊢
    have e1 : meanC (b * f0 :: fs.map (b * ·)) = b * meanC (f0 :: fs) := meanC_mul b (f0 :: fs)
    have e2 : maxC (b * f0) (b * f0 :: fs.map (b * ·)) = b * maxC f0 (f0 :: fs) := maxC_mul hb f0 (f0 :: fs)
    have e3 : minC (b * f0) (b * f0 :: fs.map (b * ·)) = b * minC f0 (f0 :: fs) := minC_mul hb f0 (f0 :: fs)
    have es : scaleOf norm false (b * f0) (b * f0 :: fs.map (b * ·)) = b * scaleOf norm false f0 (f0 :: fs) := by
      unfold scaleOf
      rw [e1, e2, e3]
      cases norm
      · simp
      · simp only [Bool.false_eq_true, if_false, if_true]; ring
    rw [es, e2, e3]
    have hr : r ≠ [] := by rintro rfl; simp [fluxes] at hf
    have h := Res.ok.inj h
    subst h
    generalize scaleOf norm false f0 (f0 :: fs) = sc
    have hd : ∀ x : ℝ, b * x / (b * sc) = x / sc := fun x => mul_div_mul_left _ _ hb.ne'
    simp only [NCurve.times, List.map_eq_nil_iff, hr, if_false, Res.ok.injEq, NCurve.mk.injEq, true_and]
    refine ⟨?_, ?_, ?_⟩
    · simp only [inUnits, List.map_map, Function.comp_def, hd]
    · rw [← mul_add, mul_div_assoc, hd]
    · rw [← mul_sub, mul_div_assoc, hd]

theorem scaleLines_in {b : ℕ → ℕ → ℝ} (hb : ∀ i j, 0 < b i j) (norm : Bool) (i j : ℕ) (ls : List (List Row))
    (sc sc' : Option ℝ) (q : List NCurve × List NormLine × Option ℝ) (h : scaleLines norm false i j ls sc = .ok q) :
    ∃ r, scaleLines norm false i j (linesIn (b i) (j + 1) ls) sc' =
      .ok (nlinesIn (b i) (j + 1) q.1, q.2.1.map (NormLine.times b), r) := by
  induction ls generalizing j sc sc' q with
  | nil =>
    rw [scaleLines] at h
    have h := Res.ok.inj h
    subst h
    exact ⟨sc', rfl⟩
  | cons l ls ih =>
    rw [scaleLines] at h
    rw [linesIn, scaleLines]
    simp only [inUnits_eq_nil]
    by_cases hl : l = []
    · rw [if_pos hl] at h ⊢
      obtain ⟨q', hq', h⟩ := Res.bind_eq_ok.1 h
      have h := Res.ok.inj h
      subst h
      obtain ⟨r, hr⟩ := ih (j + 1) sc sc' q' hq'
      refine ⟨r, ?_⟩
      rw [hr]
      simp [nlinesIn, NCurve.times]
    · rw [if_neg hl] at h ⊢
      obtain ⟨c, hc, h⟩ := Res.bind_eq_ok.1 h
      obtain ⟨q', hq', h⟩ := Res.bind_eq_ok.1 h
      have h := Res.ok.inj h
      subst h
      have hrow : c.rows ≠ [] := by
        unfold scaleCurve at hc
        rcases hf : fluxes l with _ | ⟨f0, fs⟩
        · rw [hf] at hc; cases hc
        · rw [hf] at hc
          have hc := Res.ok.inj hc
          subst hc
          simpa using hl
      obtain ⟨r, hr⟩ := ih (j + 1) _ (some (c.times (b i (j + 1))).scale) q' hq'
      refine ⟨r, ?_⟩
      rw [scaleCurve_in (hb i (j + 1)) norm l c hc]
      simp only [Res.ok_bind, hr]
      simp [nlinesIn, NormLine.times, NCurve.times, hrow]

theorem scaleSets_in (vmap : Bool) {b : ℕ → ℕ → ℝ} (hb : ∀ i j, 0 < b i j) (norm : Bool) (i : ℕ) (sets : List FSet)
    (sc sc' : Option ℝ) (q : List NSet × List NormLine) (h : scaleSets vmap norm false i sets sc = .ok q) :
    ∃ nl, scaleSets vmap norm false i (setsIn vmap b i sets) sc' = .ok (nsetsIn vmap b i q.1, nl) ∧
      (vmap = false → nl = q.2.map (NormLine.times b)) := by
  induction sets generalizing i sc sc' q with
  | nil =>
    rw [scaleSets] at h
    have h := Res.ok.inj h
    subst h
    exact ⟨[], rfl, fun _ => rfl⟩
  | cons s ss ih =>
    rw [scaleSets] at h
    obtain ⟨c, hc, h⟩ := Res.bind_eq_ok.1 h
    obtain ⟨l, hl, h⟩ := Res.bind_eq_ok.1 h
    obtain ⟨q', hq', h⟩ := Res.bind_eq_ok.1 h
    have h := Res.ok.inj h
    subst h
    rw [setsIn, scaleSets]
    cases vmap
    · simp only [scaleCon, Bool.false_eq_true, if_false] at hc ⊢
      obtain ⟨c0, hc0, hc⟩ := Res.bind_eq_ok.1 hc
      have hc := Res.ok.inj hc
      subst hc
      have hrow : c0.rows ≠ [] := by
        unfold scaleCurve at hc0
        rcases hf : fluxes s.con with _ | ⟨f0, fs⟩
        · rw [hf] at hc0; cases hc0
        · rw [hf] at hc0
          have hc0 := Res.ok.inj hc0
          subst hc0
          intro h0
          simp only [List.map_eq_nil_iff] at h0
          rw [h0] at hf
          simp [fluxes] at hf
      rw [scaleCurve_in (hb i 0) norm _ c0 hc0]
      simp only [Res.ok_bind]
      obtain ⟨r, hr⟩ := scaleLines_in hb norm i 0 s.lines _ (some (c0.times (b i 0)).scale) l hl
      rw [hr]
      simp only [Res.ok_bind]
      obtain ⟨nl, h1, h2⟩ := ih (i + 1) _ r q' hq'
      rw [h1]
      refine ⟨_, rfl, fun _ => ?_⟩
      rw [h2 rfl]
      simp [NormLine.times, NCurve.times, hrow]
    · simp only [scaleCon, if_true] at hc ⊢
      have hc := Res.ok.inj hc
      subst hc
      simp only [Res.ok_bind]
      obtain ⟨r, hr⟩ := scaleLines_in hb norm i 0 s.lines _ sc' l hl
      rw [hr]
      simp only [Res.ok_bind]
      obtain ⟨nl, h1, _⟩ := ih (i + 1) _ r q' hq'
      rw [h1]
      exact ⟨_, rfl, fun h => by cases h⟩

/-- C95: with fluxes and errors in other units the normalisation gives the same light curves, up to the recorded
factors, and (if there is a continuum) the same file of factors in the other units. -/
theorem C95_units (vmap : Bool) (b : ℕ → ℕ → ℝ) (hb : ∀ i j, 0 < b i j) (sets : List FSet)
    (out : List NSet) (nf : List NormLine) (h : scaleAll vmap false sets = .ok (out, nf)) :
    ∃ nf', scaleAll vmap false (setsIn vmap b 0 sets) = .ok (nsetsIn vmap b 0 out, nf') ∧
      (vmap = false → nf' = nf.map (NormLine.times b)) := by
  unfold scaleAll at h ⊢
  obtain ⟨norm, hn, h⟩ := Res.bind_eq_ok.1 h
  rw [C95_check vmap b hb, hn]
  exact scaleSets_in vmap hb norm 0 sets none none _ h

theorem inUnits_inv {b : ℝ} (hb : 0 < b) (r : List Row) : inUnits b⁻¹ (inUnits b r) = r := by
  simp only [inUnits, List.map_map, Function.comp_def, inv_mul_cancel_left₀ hb.ne']
  simp

theorem linesIn_inv {b : ℕ → ℝ} (hb : ∀ j, 0 < b j) (j : ℕ) (ls : List (List Row)) :
    linesIn (fun j => (b j)⁻¹) j (linesIn b j ls) = ls := by
  induction ls generalizing j with
  | nil => rfl
  | cons l ls ih => simp only [linesIn, inUnits_inv (hb j), ih]

theorem setsIn_inv (vmap : Bool) {b : ℕ → ℕ → ℝ} (hb : ∀ i j, 0 < b i j) (i : ℕ) (sets : List FSet) :
    setsIn vmap (fun i j => (b i j)⁻¹) i (setsIn vmap b i sets) = sets := by
  induction sets generalizing i with
  | nil => rfl
  | cons s ss ih =>
    simp only [setsIn, ih, linesIn_inv (hb i)]
    cases vmap
    · simp [inUnits_inv (hb i 0)]
    · simp

/-- C95: data are accepted in one unit exactly if they are accepted in another. -/
theorem C95_accepted (vmap : Bool) (b : ℕ → ℕ → ℝ) (hb : ∀ i j, 0 < b i j) (sets : List FSet) :
    (∃ r, scaleAll vmap false (setsIn vmap b 0 sets) = .ok r) ↔ ∃ r, scaleAll vmap false sets = .ok r := by
  constructor
  · rintro ⟨⟨out, nf⟩, h⟩
    obtain ⟨nf', h1, -⟩ := C95_units vmap (fun i j => (b i j)⁻¹) (fun i j => inv_pos.2 (hb i j)) _ out nf h
    rw [setsIn_inv vmap hb] at h1
    exact ⟨_, h1⟩
  · rintro ⟨⟨out, nf⟩, h⟩
    obtain ⟨nf', h1, -⟩ := C95_units vmap b hb _ out nf h
    exact ⟨_, h1⟩

theorem nlines_rows (b : ℕ → ℝ) (j : ℕ) (ls : List NCurve) :
    (nlinesIn b j ls).map NCurve.rows = ls.map NCurve.rows := by
  induction ls generalizing j with
  | nil => rfl
  | cons l ls ih =>
    simp only [nlinesIn, List.map_cons, ih, NCurve.times]
    split <;> rfl

/-- C95: what the likelihoods are computed from (times, normalised fluxes and errors) is the same, and a flux
printed in a file of results is the same flux in the other units. -/
theorem C95_same_data (b : ℕ → ℕ → ℝ) (i : ℕ) (out : List NSet) :
    (nsetsIn false b i out).map (fun s => (s.con.rows, s.lines.map NCurve.rows)) =
      out.map (fun s => (s.con.rows, s.lines.map NCurve.rows)) ∧
    ∀ (c : NCurve) (a x : ℝ), c.rows ≠ [] → printed (c.times a) x = a * printed c x := by
  refine ⟨?_, fun c a x hc => ?_⟩
  · induction out generalizing i with
    | nil => rfl
    | cons s ss ih =>
      simp only [nsetsIn, List.map_cons, ih, nlines_rows]
      congr 2
      simp only [Bool.false_eq_true, if_false, NCurve.times]
      split <;> rfl
  · simp only [printed, NCurve.times, if_neg hc]
    ring

theorem scaleAll_off {k e : ℝ} (hk : 0 < k) : scaleAll false true [⟨[(0, k, e), (1, 3 * k, e)], []⟩] =
    .ok ([⟨⟨[(0, k, e), (1, 3 * k, e)], 1, 2 * k, k⟩, []⟩], [(0, 0, some 1)]) := by
  have h1 : ¬ (k < k) := lt_irrefl _
  have h2 : k < 3 * k := by linarith
  have h3 : ¬ (3 * k < k) := by linarith
  have hm : meanC [k, 3 * k] = 2 * k := by simp [meanC]; ring
  have hM : maxC k [k, 3 * k] = 3 * k := by simp [maxC, h2]
  have hn : minC k [k, 3 * k] = k := by simp [minC, h3]
  have c1 : ¬ (2 * k ≤ 0) := by linarith
  have c2 : ¬ ((3 * k - k) / 2 = 0) := by intro h; apply hk.ne'; linarith
  have c3 : ¬ (2 * k < (3 * k - k) / 2 / 100) := by intro h; linarith
  have hs : checkSets false [⟨[(0, k, e), (1, 3 * k, e)], []⟩] false = .ok false := by
    simp only [checkSets, fluxes, List.map_cons, List.map_nil, checkCurve, hm, hM, hn, Bool.false_eq_true, if_false,
      if_neg c1, if_neg c2, if_neg c3, checkLines, Res.bind]
  unfold scaleAll
  rw [hs]
  simp only [Res.ok_bind, scaleSets, scaleCon, scaleCurve, fluxes, List.map_cons, List.map_nil, scaleOf, hM, hn,
    Bool.false_eq_true, if_false, if_true, div_one, scaleLines, List.nil_append, Res.ok.injEq, Prod.mk.injEq,
    List.cons.injEq, NSet.mk.injEq, NCurve.mk.injEq, and_true, true_and]
  constructor <;> ring

/-- Where the normalisation is switched off (shared transfer functions or variability parameters) the units do
matter: the same light curve in units half as large is another light curve for the likelihoods. -/
theorem C95_not_without_scaling : ∃ (sets : List FSet) (out out' : List NSet) (nf nf' : List NormLine),
    scaleAll false true sets = .ok (out, nf) ∧
    scaleAll false true (setsIn false (fun _ _ => 2) 0 sets) = .ok (out', nf') ∧
    out'.map (fun s => s.con.rows) ≠ out.map (fun s => s.con.rows) := by
  refine ⟨[⟨[(0, 1, 1), (1, 3 * 1, 1)], []⟩], _, [⟨⟨[(0, 2, 2), (1, 3 * 2, 2)], 1, 2 * 2, 2⟩, []⟩], _, [(0, 0, some 1)],
    scaleAll_off one_pos, ?_, ?_⟩
  · rw [← scaleAll_off two_pos]
    simp only [setsIn, inUnits, linesIn, List.map_cons, List.map_nil, Bool.false_eq_true, if_false]
    norm_num
  · simp

/-- Data that are accepted: two points in each of two light curves, in units of 10^-15 and 10^-13. -/
example : ∃ r, scaleAll false false (setsIn false (fun _ j => if j = 0 then 1e-15 else 1e-13) 0
    [⟨[(0, 1, 1), (1, 3, 1)], [[(0, 2, 1), (1, 4, 1)]]⟩]) = .ok r := by
  rw [C95_accepted]
  · have h : checkSets false [⟨[(0, 1, 1), (1, 3, 1)], [[(0, 2, 1), (1, 4, 1)]]⟩] false = .ok false := by
      simp only [checkSets, checkLines, checkCurve, fluxes, List.map_cons, List.map_nil, meanC, maxC, minC,
        List.foldl_cons, List.foldl_nil, Bool.false_eq_true, if_false, Res.bind]
      norm_num
    unfold scaleAll
    rw [h]
    simp [scaleSets, scaleCon, scaleCurve, scaleLines, fluxes]
  · intro i j
    split <;> norm_num

end Mica
