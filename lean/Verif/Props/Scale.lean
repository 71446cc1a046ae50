import Verif.Proof.Scale

/-!
# C43, C70: normalisation of the light curves; end of `read_data`

`scale_con_line`, `cal_mean_error` and the rest of `read_data` (src/read.c:883-1332).
-/

namespace Mica

/-- The light curves of an accepted data set are not empty (apart from skipped ones). -/
private theorem checkList_ne {rs : List (List Row)} {b b' : Bool} (h : checkList rs b = .ok b') :
    ∀ r ∈ rs, r ≠ [] := by
  induction rs generalizing b with
  | nil => simp
  | cons r rs ih =>
    rw [checkList] at h
    intro x hx
    cases hc : checkCurve (fluxes r) b with
    | ok a =>
      rw [hc] at h
      rcases List.mem_cons.1 hx with rfl | hx
      · rintro rfl; simp [fluxes, checkCurve] at hc
      · exact ih h x hx
    | exit => rw [hc] at h; cases h
    | ub => rw [hc] at h; cases h
    | hang => rw [hc] at h; cases h

private theorem con_mem {sets : List FSet} {s : FSet} (hs : s ∈ sets) : s.con ∈ normCurves false sets := by
  unfold normCurves
  rw [List.mem_flatten]
  exact ⟨_, List.mem_map.2 ⟨s, hs, rfl⟩, by simp⟩

private theorem line_mem {vmap : Bool} {sets : List FSet} {s : FSet} {l : List Row} (hs : s ∈ sets)
    (hl : l ∈ s.lines) (hne : l ≠ []) : l ∈ normCurves vmap sets := by
  unfold normCurves
  rw [List.mem_flatten]
  refine ⟨_, List.mem_map.2 ⟨s, hs, rfl⟩, ?_⟩
  rw [List.mem_append]
  right
  exact List.mem_filter.2 ⟨hl, by simpa using hne⟩

private theorem curves_ne {vmap : Bool} {sets : List FSet} (h : vmap = false → ∀ s ∈ sets, s.con ≠ []) :
    ∀ r ∈ normCurves vmap sets, r ≠ [] := by
  intro r hr
  unfold normCurves at hr
  rw [List.mem_flatten] at hr
  obtain ⟨l, hl, hr⟩ := hr
  obtain ⟨s, hs, rfl⟩ := List.mem_map.1 hl
  rcases List.mem_append.1 hr with hr | hr
  · cases vmap with
    | true => simp at hr
    | false =>
      simp only [Bool.false_eq_true, if_false, List.mem_singleton] at hr
      rw [hr]; exact h rfl s hs
  · simpa using (List.mem_filter.1 hr).2

open Classical in
/-- All the steps of an accepted normalisation. -/
private theorem scale_facts {vmap noscale : Bool} {sets : List FSet} {out : List NSet} {nf : List NormLine}
    (h : scaleAll vmap noscale sets = .ok (out, nf)) :
    (∀ r ∈ normCurves vmap sets, Usable (fluxes r)) ∧ (vmap = false → ∀ s ∈ sets, s.con ≠ []) ∧
      ∃ norm, norm = decide (∃ r ∈ normCurves vmap sets, SmallMean (fluxes r)) ∧
        List.Forall₂ (SetRel vmap norm noscale) sets out ∧
        scaleSets vmap norm noscale 0 sets none = .ok (out, nf) := by
  unfold scaleAll at h
  rw [Res.bind_eq_ok] at h
  obtain ⟨norm, h1, h2⟩ := h
  rw [checkSets_eq] at h1
  have hne := checkList_ne h1
  rw [checkList_ok hne] at h1
  have hcon : vmap = false → ∀ s ∈ sets, s.con ≠ [] := by
    rintro rfl s hs; exact hne _ (con_mem hs)
  split_ifs at h1 with hall
  simp only [Bool.false_or, Res.ok.injEq] at h1
  obtain ⟨ns, nf', h3, h4, -⟩ := scaleSets_spec (norm := norm) (noscale := noscale) 0 sets none hcon
  rw [h3] at h2
  simp only [Res.ok.injEq, Prod.mk.injEq] at h2
  obtain ⟨rfl, rfl⟩ := h2
  exact ⟨hall, hcon, norm, h1.symm, h4, h3⟩

/-- **C43.** After an accepted normalisation every light curve with points is the input divided by a
positive factor: times are unchanged, what is printed (value times factor) is the input flux and
error, and relative errors are unchanged.  Virtual continua and empty light curves are left alone. -/
theorem C43_scale (vmap noscale : Bool) (sets : List FSet) (out : List NSet) (nf : List NormLine)
    (h : scaleAll vmap noscale sets = .ok (out, nf)) :
    List.Forall₂ (fun s o => (vmap = false → Scaled s.con o.con) ∧
      (vmap = true → o.con.rows = s.con ∧ o.con.scale = 1) ∧
      List.Forall₂ (fun l c => (l = [] → c.rows = []) ∧ (l ≠ [] → Scaled l c)) s.lines o.lines) sets out := by
  obtain ⟨h1, h2, norm, -, h4, -⟩ := scale_facts h
  have h4' := List.forall₂_iff_zip.1 h4
  refine List.forall₂_iff_zip.2 ⟨h4'.1, fun {s o} hso => ?_⟩
  have hs : s ∈ sets := (List.of_mem_zip hso).1
  obtain ⟨a1, a2, a3⟩ := h4'.2 hso
  refine ⟨fun hv => (scaleCurve_ok (a2 hv) ?_).1, a1, ?_⟩
  · subst hv; exact h1 _ (con_mem hs)
  · have a3' := List.forall₂_iff_zip.1 a3
    refine List.forall₂_iff_zip.2 ⟨a3'.1, fun {l c} hlc => ?_⟩
    obtain ⟨b1, b2⟩ := a3'.2 hlc
    exact ⟨fun hl => (b1 hl).1, fun hl => (scaleCurve_ok (b2 hl) (h1 _ (line_mem hs (List.of_mem_zip hlc).1 hl))).1⟩

/-- **C43.** Data sets are accepted exactly if every light curve that gets normalised has a positive
mean and is not constant; otherwise the program stops. -/
theorem C43_accept (vmap noscale : Bool) (sets : List FSet) (hcon : vmap = false → ∀ s ∈ sets, s.con ≠ []) :
    ((∃ p, scaleAll vmap noscale sets = .ok p) ↔ ∀ r ∈ normCurves vmap sets, Usable (fluxes r)) ∧
      ((¬ ∀ r ∈ normCurves vmap sets, Usable (fluxes r)) → scaleAll vmap noscale sets = .exit) := by
  classical
  have hexit : (¬ ∀ r ∈ normCurves vmap sets, Usable (fluxes r)) → scaleAll vmap noscale sets = .exit := by
    intro h
    unfold scaleAll
    rw [checkSets_eq, checkList_ok (curves_ne hcon), if_neg h]
    rfl
  refine ⟨⟨fun ⟨p, hp⟩ => (scale_facts (out := p.1) (nf := p.2) hp).1, fun h => ?_⟩, hexit⟩
  unfold scaleAll
  rw [checkSets_eq, checkList_ok (curves_ne hcon), if_pos h]
  obtain ⟨ns, nf, h3, -⟩ := scaleSets_spec (noscale := noscale) (norm := decide (∃ r ∈ normCurves vmap sets,
    SmallMean (fluxes r))) 0 sets none hcon
  exact ⟨(ns, nf), by simpa using h3⟩

/-- **C43.** One choice holds for all light curves: the factor is the mean flux, unless some light curve
has a mean below a hundredth of half its range, in which case it is half the range for all of them;
and it is 1 if transfer functions or variability parameters are shared. -/
theorem C43_factor (vmap noscale : Bool) (sets : List FSet) (out : List NSet) (nf : List NormLine)
    (h : scaleAll vmap noscale sets = .ok (out, nf)) (F : List ℝ → ℝ → Prop)
    (hF1 : noscale = true → ∀ f, F f 1)
    (hF2 : noscale = false → (∃ r ∈ normCurves vmap sets, SmallMean (fluxes r)) → ∀ f x, HalfRange f x → F f x)
    (hF3 : noscale = false → (¬ ∃ r ∈ normCurves vmap sets, SmallMean (fluxes r)) → ∀ f, F f (curveMean f)) :
    List.Forall₂ (fun s o => (vmap = false → F (fluxes s.con) o.con.scale) ∧
      List.Forall₂ (fun l c => l ≠ [] → F (fluxes l) c.scale) s.lines o.lines) sets out := by
  classical
  obtain ⟨h1, h2, norm, h3, h4, -⟩ := scale_facts h
  have key : ∀ r c, scaleCurve norm noscale r = .ok c → Usable (fluxes r) → F (fluxes r) c.scale := by
    intro r c hc hu
    obtain ⟨-, a1, a2, a3, -⟩ := scaleCurve_ok hc hu
    cases hn : noscale with
    | true => rw [a1 hn]; exact hF1 hn _
    | false =>
      by_cases hs : ∃ r ∈ normCurves vmap sets, SmallMean (fluxes r)
      · exact hF2 hn hs _ _ (a3 hn (by rw [h3]; exact decide_eq_true hs))
      · rw [a2 hn (by rw [h3]; exact decide_eq_false hs)]
        exact hF3 hn hs _
  have h4' := List.forall₂_iff_zip.1 h4
  refine List.forall₂_iff_zip.2 ⟨h4'.1, fun {s o} hso => ?_⟩
  have hs : s ∈ sets := (List.of_mem_zip hso).1
  obtain ⟨a1, a2, a3⟩ := h4'.2 hso
  refine ⟨fun hv => key _ _ (a2 hv) ?_, ?_⟩
  · subst hv; exact h1 _ (con_mem hs)
  · have a3' := List.forall₂_iff_zip.1 a3
    refine List.forall₂_iff_zip.2 ⟨a3'.1, fun {l c} hlc hl => ?_⟩
    exact key _ _ ((a3'.2 hlc).2 hl) (h1 _ (line_mem hs (List.of_mem_zip hlc).1 hl))

/-- **C43.** Mean errors, like fluxes, are in units of the factor. -/
theorem C43_errors (r : List Row) (c : NCurve) (h : Scaled r c) :
    errorMean c.rows * c.scale = errorMean r := by
  unfold errorMean
  rw [meanC_eq, meanC_eq]
  unfold curveMean
  have hl := h.rows.length_eq
  have hsum : (c.rows.map fun x => x.2.2).sum * c.scale = (r.map fun x => x.2.2).sum := by
    have := h.rows
    generalize c.rows = q at this
    clear hl h
    induction this with
    | nil => simp
    | cons hab _ ih =>
      simp only [List.map_cons, List.sum_cons, add_mul, ih]
      rw [← hab.2.2.1]
      rfl
  rw [div_mul_eq_mul_div, hsum, List.length_map, List.length_map, hl]

/-- **C43.** `data/normalization.txt` lists, for every data set, the factor of the continuum and those of
the line light curves with points.  Missing: the mode `vmap`, see `C43_vmap_file`. -/
theorem C43_file_partial (noscale : Bool) (sets : List FSet) (out : List NSet) (nf : List NormLine)
    (h : scaleAll false noscale sets = .ok (out, nf)) :
    nf = ((sets.zip out).zipIdx).flatMap (fun p =>
      (p.2, 0, some p.1.2.con.scale) :: ((p.1.1.lines.zip p.1.2.lines).zipIdx).filterMap (fun q =>
        if q.1.1 = [] then none else some (p.2, q.2 + 1, some q.1.2.scale))) := by
  obtain ⟨-, h2, norm, -, -, h5⟩ := scale_facts h
  obtain ⟨ns, nf', h6, -, h7⟩ := scaleSets_spec (norm := norm) (noscale := noscale) 0 sets none h2
  rw [h5] at h6
  simp only [Res.ok.injEq, Prod.mk.injEq] at h6
  obtain ⟨rfl, rfl⟩ := h6
  exact h7 rfl

/-- **C43, negation.** In the mode `vmap` the first factor written to `data/normalization.txt` is a
variable without value. -/
theorem C43_vmap_file (noscale : Bool) (s : FSet) (ss : List FSet) (out : List NSet) (nf : List NormLine)
    (h : scaleAll true noscale (s :: ss) = .ok (out, nf)) : nf.head? = some (0, 0, none) := by
  obtain ⟨-, -, norm, -, -, h5⟩ := scale_facts h
  simp only [scaleSets, scaleCon, if_true, Res.ok_bind, Res.bind_eq_ok] at h5
  obtain ⟨l, -, q, -, h6⟩ := h5
  simp only [Res.ok.injEq, Prod.mk.injEq] at h6
  rw [← h6.2]
  rfl

/-! ## C70: the end of `read_data` -/

private theorem printAll_ok {out : List NSet} (h : ∀ n ∈ out, n.con.rows ≠ []) : printAll out = .ok () := by
  induction out with
  | nil => rfl
  | cons n out ih =>
    obtain ⟨x, r, hx⟩ := List.exists_cons_of_ne_nil (h n (by simp))
    rw [printAll, printEnds, hx]
    exact ih fun m hm => h m (by simp [hm])

/-- **C70.** With points in every continuum, normalisation and final printout touch only existing points.
Missing: virtual continua, see `C70_vmap`. -/
theorem C70_finish_partial (noscale : Bool) (sets : List FSet) (hcon : ∀ s ∈ sets, s.con ≠ []) :
    ((∃ p, finishData false noscale sets = .ok p) ↔ ∀ r ∈ normCurves false sets, Usable (fluxes r)) ∧
      ((¬ ∀ r ∈ normCurves false sets, Usable (fluxes r)) → finishData false noscale sets = .exit) := by
  obtain ⟨h1, h2⟩ := C43_accept false noscale sets fun _ => hcon
  constructor
  · rw [← h1]
    constructor
    · rintro ⟨p, hp⟩
      unfold finishData at hp
      rw [Res.bind_eq_ok] at hp
      obtain ⟨q, hq, -⟩ := hp
      exact ⟨q, hq⟩
    · rintro ⟨⟨out, nf⟩, hp⟩
      refine ⟨(out, nf), ?_⟩
      unfold finishData
      rw [hp, Res.ok_bind]
      have hsc := List.forall₂_iff_zip.1 (C43_scale _ _ _ _ _ hp)
      have : printAll out = .ok () := by
        refine printAll_ok fun o ho => ?_
        obtain ⟨i, hi, rfl⟩ := List.mem_iff_getElem.1 ho
        have hi' : i < sets.length := by rw [hsc.1]; exact hi
        have hz : (sets[i], out[i]) ∈ sets.zip out := by
          rw [List.mem_iff_getElem]
          exact ⟨i, by simp [hi, hi'], by simp⟩
        have hs := ((hsc.2 hz).1 rfl).rows.length_eq
        intro h0
        rw [h0] at hs
        exact hcon _ (List.getElem_mem hi') (List.length_eq_zero_iff.1 hs)
      simp [this]
  · intro h
    unfold finishData
    rw [h2 h]
    rfl

/-- **C70, negation.** In the mode `vmap`, where continua must be empty, reading accepted data ends with
an access to the first point of an empty light curve. -/
theorem C70_vmap (noscale : Bool) (s : FSet) (ss : List FSet) (hs : s.con = [])
    (hu : ∀ r ∈ normCurves true (s :: ss), Usable (fluxes r)) :
    finishData true noscale (s :: ss) = .ub := by
  obtain ⟨⟨out, nf⟩, hp⟩ := (C43_accept true noscale (s :: ss) (by simp)).1.2 hu
  unfold finishData
  rw [hp, Res.ok_bind]
  have hsc := C43_scale _ _ _ _ _ hp
  cases hsc with
  | @cons _ o _ os h1 _ =>
    have h2 := (h1.2.1 rfl).1
    rw [hs] at h2
    simp [printAll, printEnds, h2, Res.bind]

/-- **C70.** From the file on: for a file in the documented format with points in every continuum and the
empty lines last, `read_data` returns or stops with a message; nothing undefined happens. -/
theorem C70_read_partial (nums : List Char → List ℝ) (path file body : List Char)
    (counts : List (ℕ × List ℕ)) (hfile : IsData file counts body) (hempty : ∀ c ∈ counts, EmptyLast c.2)
    (hpos : ∀ c ∈ counts, 0 < c.1) (noscale : Bool) :
    (∃ p, (readMain false nums path file >>= finishData false noscale) = .ok p) ∨
      (readMain false nums path file >>= finishData false noscale) = .exit := by
  rw [readMain_header nums path hfile (by simp) hempty]
  rcases readSets_safe (counts.map fun c => (c.1, c.2.filter (0 < ·))) (nums body) with ⟨sets, h⟩ | h
  · rw [h, Res.ok_bind]
    rw [readSets_iff] at h
    have hcon : ∀ s ∈ sets, s.con ≠ [] := by
      intro s hs h0
      have : (s.con.length, s.lines.map List.length)
          ∈ counts.map fun c => (c.1, c.2.filter (0 < ·)) := by
        rw [← h.1]; exact List.mem_map.2 ⟨s, hs, rfl⟩
      obtain ⟨c, hc, he⟩ := List.mem_map.1 this
      have := hpos c hc
      simp only [Prod.mk.injEq] at he
      rw [he.1, h0] at this
      simp at this
    obtain ⟨h1, h2⟩ := C70_finish_partial noscale sets hcon
    by_cases hu : ∀ r ∈ normCurves false sets, Usable (fluxes r)
    · left; exact h1.2 hu
    · right; exact h2 hu
  · right; rw [h]; rfl

/-! ## Concrete cases -/

private theorem exUsable : Usable (fluxes [(0, 1, 1), (1, 3, 1)]) := by
  refine ⟨?_, 1, by simp [fluxes], 3, by simp [fluxes], by norm_num⟩
  norm_num [curveMean, fluxes]

example : ∃ p, scaleAll false false [⟨[(0, 1, 1), (1, 3, 1)], [[(0, 1, 1), (1, 3, 1)], []]⟩] = .ok p := by
  refine (C43_accept false false _ (by simp)).1.2 ?_
  simp only [normCurves]
  simpa using exUsable

/-- A constant light curve is refused. -/
example : scaleAll false false [⟨[(0, 2, 1), (1, 2, 1)], []⟩] = .exit := by
  refine (C43_accept false false _ (by simp)).2 ?_
  intro h
  obtain ⟨-, x, hx, y, hy, hxy⟩ := h [(0, 2, 1), (1, 2, 1)] (by simp [normCurves])
  simp [fluxes] at hx hy
  exact hxy (by rw [hx, hy])

/-- A virtual continuum with one line: accepted by the normalisation, then out of bounds. -/
example : finishData true false [⟨[], [[(0, 1, 1), (1, 3, 1)]]⟩] = .ub :=
  C70_vmap false _ _ rfl (by simpa [normCurves] using exUsable)

end Mica
