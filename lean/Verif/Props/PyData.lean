import Verif.Model.PyData
import Verif.Proof.PyText
import Verif.Props.OutText
import Verif.Model.PyAccess

/-!
# C114: data files written by Python
-/

namespace Mica

/-- A light curve as an array with three columns. -/
def arr3 (c : List Row) : PyArr := c.map fun r => [r.1, r.2.1, r.2.2]

/-- A row read back, each number within `tol` of the number given. -/
def RowTol (tol : ℝ → ℝ) (r r' : Row) : Prop :=
  |r'.1 - r.1| ≤ tol r.1 ∧ |r'.2.1 - r.2.1| ≤ tol r.2.1 ∧ |r'.2.2 - r.2.2| ≤ tol r.2.2

/-- A data set read back: the driving light curve and the responding light curves with points, in their order. -/
def SetTol (tol : ℝ → ℝ) (con : List Row) (lines : List (List Row)) (s : FSet) : Prop :=
  List.Forall₂ (RowTol tol) con s.con ∧ List.Forall₂ (List.Forall₂ (RowTol tol)) (lines.filter (· ≠ [])) s.lines

/-- Responding light curves without points come last. -/
def EmptyLinesLast (lines : List (List Row)) : Prop := ∀ i j : ℕ, i < j → lines[i]? = some [] → ∀ l, lines[j]? = some l → l = []

/-! ### Lemmas -/

section Lemmas

variable {num : ℝ → List Char} {val : ℝ → ℝ}

theorem yields_savetxtRow (hy : ∀ x, ∀ c : Char, isSpaceC c = true → Yields (num x ++ [c]) [val x]) (r : List ℝ) :
    Yields (savetxtRow num r) (r.map val) := by
  match r with
  | [] => exact .spaces (b := ['\n']) (by decide)
  | [x] => exact hy x '\n' (by decide)
  | x :: y :: r =>
    have := (hy x ' ' (by decide)).append (yields_savetxtRow hy (y :: r))
    simpa [savetxtRow] using this

theorem yields_savetxt (hy : ∀ x, ∀ c : Char, isSpaceC c = true → Yields (num x ++ [c]) [val x]) (a : PyArr) :
    Yields (savetxt num a) (a.flatten.map val) := by
  have := Yields.flatten (l := a) fun r _ => yields_savetxtRow hy r
  rw [List.map_flatten]
  exact this

theorem yields_sci (x : ℝ) (c : Char) (hc : isSpaceC c = true) : Yields (sciText 6 x ++ [c]) [sciVal 6 x] := .number 6 x hc

theorem yields_fmt6 (x : ℝ) (c : Char) (hc : isSpaceC c = true) : Yields (fmt6 x ++ [c]) [rd6 x] := by
  refine ⟨by simp, fun a ha => ⟨[c], by simpa using hc, fun rest k => ?_⟩⟩
  have := scanLf_fmt6_space x (s := rest) ha hc
  rw [List.length_singleton, Nat.add_comm, lfNums]
  rw [show a ++ (fmt6 x ++ [c] ++ rest) = a ++ (fmt6 x ++ c :: rest) by simp, this]
  rfl

theorem pyHead_head (n : ℕ) (ns : List ℕ) : IsHead (pyHead (n :: ns)) n ns := by
  refine ⟨' ' :: Nat.toDigits 10 n, ns.map fun m => Nat.toDigits 10 m, ?_, ⟨[' '], [], by simp, by simp, by simp⟩, ?_⟩
  · simp [pyHead, List.map_map, Function.comp_def]
  · induction ns with
    | nil => exact .nil
    | cons m ns ih => exact .cons ⟨[], [], by simp, by simp, by simp⟩ ih

theorem pyHead_data (counts : List (ℕ × List ℕ)) (body : List Char) (hfit : (pyHead [counts.length]).length < 255)
    (hfits : ∀ c ∈ counts, (pyHead (c.1 :: c.2)).length < 255) :
    IsData ('#' :: ' ' :: (Nat.toDigits 10 counts.length ++ ('\n' ::
      ((counts.map fun c => pyHead (c.1 :: c.2) ++ ['\n']).flatten ++ body)))) counts body := by
  refine ⟨⟨pyHead [counts.length], counts.map fun c => pyHead (c.1 :: c.2), ?_, pyHead_head _ _, ?_, ?_⟩⟩
  · simp [pyHead, List.map_map, Function.comp_def]
  · clear hfit hfits
    induction counts with
    | nil => exact .nil
    | cons s sets ih => exact .cons (pyHead_head _ _) ih
  · intro l hl
    rcases List.mem_cons.1 hl with rfl | hl
    · exact hfit
    · obtain ⟨s, hs, rfl⟩ := List.mem_map.1 hl
      exact hfits s hs

/-- The row that is read back. -/
def valRow (val : ℝ → ℝ) (r : Row) : Row := (val r.1, val r.2.1, val r.2.2)

theorem arr3_nums (c : List Row) : (arr3 c).flatten.map val = rowNums (c.map (valRow val)) := by
  induction c with
  | nil => rfl
  | cons r c ih =>
    simp only [arr3, rowNums, List.map_cons, List.flatten_cons, List.map_append, List.map_nil, valRow] at ih ⊢
    rw [ih]

theorem arr3_length (c : List Row) : (arr3 c).length = c.length := by simp [arr3]

/-- What is read from headers in this form and numbers in this order. -/
theorem read_sets (vmap : Bool) (hmono : ∀ x y, x ≤ y → val x ≤ val y)
    (path text body : List Char) (data : List (List Row × List (List Row)))
    (hdata : IsData text (data.map fun d => (d.1.length, d.2.map List.length)) body)
    (hnums : fileNums body = ((data.map fun d => d.1 :: d.2).flatten.map fun c => rowNums (c.map (valRow val))).flatten)
    (hv : vmap = true → ∀ d ∈ data, d.1 = []) (hempty : ∀ d ∈ data, EmptyLinesLast d.2)
    (hasc : ∀ d ∈ data, Ascending d.1 ∧ ∀ l ∈ d.2, Ascending l) :
    readMain vmap fileNums path text = .ok (data.map fun d =>
      ⟨d.1.map (valRow val), (d.2.filter (· ≠ [])).map fun c => c.map (valRow val)⟩) := by
  have hascm : ∀ {l : List Row}, Ascending l → Ascending (l.map (valRow val)) := by
    intro l h
    unfold Ascending at h ⊢
    rw [List.pairwise_map]
    exact h.imp fun hab => hmono _ _ hab
  rw [C42_read_partial vmap fileNums path _ _ _ hdata]
  · refine ⟨?_, ⟨[], ?_⟩, ?_⟩
    · rw [List.map_map, List.map_map]
      refine List.map_congr_left fun d _ => ?_
      simp only [Function.comp, List.length_map, List.map_map, Prod.mk.injEq, true_and]
      rw [List.filter_map]
      have : ((fun n => decide (0 < n)) ∘ List.length : List Row → Bool) = fun l => decide (l ≠ []) := by
        funext l
        simp [List.length_pos_iff]
      rw [this]
      refine List.map_congr_left fun l _ => ?_
      simp
    · rw [hnums, List.append_nil, setNums, List.map_map]
      clear hnums hdata hv hempty hasc
      induction data with
      | nil => rfl
      | cons d data ih =>
        simp only [List.map_cons, List.flatten_cons, List.map_append, List.flatten_append, ih, List.cons_append,
          List.append_assoc, Function.comp]
        congr 1
        congr 1
        generalize d.2 = ls
        clear ih
        induction ls with
        | nil => rfl
        | cons l ls ih =>
          simp only [List.map_cons, List.flatten_cons, ih]
          by_cases h : l = []
          · subst h; simp [rowNums]
          · rw [List.filter_cons_of_pos (by simpa using h)]
            simp
    · intro s hs
      obtain ⟨d, hd, rfl⟩ := List.mem_map.1 hs
      refine ⟨hascm (hasc d hd).1, fun l hl => ?_⟩
      obtain ⟨c, hc, rfl⟩ := List.mem_map.1 hl
      exact hascm ((hasc d hd).2 c (List.mem_filter.1 hc).1)
  · intro hvm c hc
    obtain ⟨d, hd, rfl⟩ := List.mem_map.1 hc
    simp [hv hvm d hd]
  · intro c hc
    obtain ⟨d, hd, rfl⟩ := List.mem_map.1 hc
    intro i j hij hi n hn
    simp only [List.getElem?_map, Option.map_eq_some_iff] at hi hn
    obtain ⟨l, h1, h2⟩ := hi
    obtain ⟨m, h3, rfl⟩ := hn
    rw [List.length_eq_zero_iff] at h2
    subst h2
    rw [hempty d hd i j hij h1 m h3, List.length_nil]

theorem valSets_close {tol : ℝ → ℝ} (htol : ∀ x, |val x - x| ≤ tol x) (data : List (List Row × List (List Row))) :
    List.Forall₂ (fun d s => SetTol tol d.1 d.2 s) data (data.map fun d =>
      ⟨d.1.map (valRow val), (d.2.filter (· ≠ [])).map fun c => c.map (valRow val)⟩) := by
  have hrow : ∀ r, RowTol tol r (valRow val r) := fun r => ⟨htol _, htol _, htol _⟩
  exact forall₂_map (fun d => ⟨forall₂_map hrow _, forall₂_map (fun l => forall₂_map hrow l) _⟩) _

end Lemmas

/-- Numbers of points announced by the header of a data set. -/
def pyCounts (d : Option PyArr × List (Option PyArr)) : ℕ × List ℕ := (pyLen d.1, d.2.map pyLen)

/-- Header lines that fit the buffer of the C code. -/
def PyHeadsFit (data : List (Option PyArr × List (Option PyArr))) : Prop :=
  (pyHead [data.length]).length < 255 ∧ ∀ d ∈ data, (pyHead (pyLen d.1 :: d.2.map pyLen)).length < 255

theorem pyData_text (data : List (Option PyArr × List (Option PyArr))) (hlines : ∀ d ∈ data, d.2 ≠ []) (hfit : PyHeadsFit data) :
    ∃ text body, pyDataText (data.map fun d => d.1 :: d.2) = some text ∧ IsData text (data.map pyCounts) body ∧
      fileNums body = ((data.map fun d => d.1 :: d.2).flatten.map fun a => (a.getD []).flatten.map (sciVal 6)).flatten := by
  have hcurve : ∀ c : Option PyArr, Yields (if 0 < pyLen c then savetxt (sciText 6) (c.getD []) ++ ['\n'] else [])
      ((c.getD []).flatten.map (sciVal 6)) := by
    intro c
    split
    · have := (yields_savetxt yields_sci (c.getD [])).append (.spaces (b := ['\n']) (by decide))
      rwa [List.append_nil] at this
    · rename_i h
      rw [pyLen, Nat.not_lt, Nat.le_zero, List.length_eq_zero_iff] at h
      rw [h]
      exact .spaces (by simp)
  refine ⟨'#' :: ' ' :: (Nat.toDigits 10 (data.map fun d => d.1 :: d.2).length ++ ('\n' ::
    (((data.map fun d => d.1 :: d.2).map fun d => pyHead (d.map pyLen) ++ ['\n']).flatten ++
      ((data.map fun d => d.1 :: d.2).map fun d => (d.map fun a => if 0 < pyLen a then savetxt (sciText 6) (a.getD []) ++ ['\n'] else []).flatten).flatten))),
    ((data.map fun d => d.1 :: d.2).map fun d => (d.map fun a => if 0 < pyLen a then savetxt (sciText 6) (a.getD []) ++ ['\n'] else []).flatten).flatten, ?_, ?_, ?_⟩
  · unfold pyDataText
    rw [if_neg]
    simp only [List.any_map, List.any_eq_true, Function.comp, decide_eq_true_eq, not_exists, not_and, not_lt, List.length_cons]
    intro d hd
    have := List.length_pos_iff.2 (hlines d hd)
    omega
  · have := pyHead_data (data.map pyCounts)
      (((data.map fun d => d.1 :: d.2).map fun d => (d.map fun a => if 0 < pyLen a then savetxt (sciText 6) (a.getD []) ++ ['\n'] else []).flatten).flatten)
      (by simpa using hfit.1) (by
        intro c hc
        obtain ⟨d, hd, rfl⟩ := List.mem_map.1 hc
        exact hfit.2 d hd)
    simpa [pyCounts, Function.comp_def] using this
  · have := Yields.flatten (l := data) (f := fun d => ((d.1 :: d.2).map fun c : Option PyArr =>
        if 0 < pyLen c then savetxt (sciText 6) (c.getD []) ++ ['\n'] else []).flatten)
      (g := fun d => ((d.1 :: d.2).map fun c : Option PyArr => (c.getD []).flatten.map (sciVal 6)).flatten)
      fun d _ => Yields.flatten fun c _ => hcurve c
    have e := this.nums
    rw [List.map_map, show ((fun d : List (Option PyArr) => (d.map fun a => if 0 < pyLen a then savetxt (sciText 6) (a.getD []) ++ ['\n'] else []).flatten) ∘
      fun d : Option PyArr × List (Option PyArr) => d.1 :: d.2) = fun d : Option PyArr × List (Option PyArr) => ((d.1 :: d.2).map fun c : Option PyArr =>
        if 0 < pyLen c then savetxt (sciText 6) (c.getD []) ++ ['\n'] else []).flatten from rfl, e]
    clear e this hlines hfit
    induction data with
    | nil => rfl
    | cons d data ih =>
      rw [List.map_cons, List.flatten_cons, ih]
      simp only [List.map_cons, List.flatten_cons, List.map_append, List.flatten_append, List.cons_append, List.append_assoc]

/-- Light curves with three columns, as arrays; a light curve without points can be given as `None` or as an empty array. -/
def pyData (data : List (Option (List Row) × List (Option (List Row)))) : List (Option PyArr × List (Option PyArr)) :=
  data.map fun d => (d.1.map arr3, d.2.map fun c => c.map arr3)

/-- The light curves, `None` being one without points. -/
def pyCurves (data : List (Option (List Row) × List (Option (List Row)))) : List (List Row × List (List Row)) :=
  data.map fun d => (d.1.getD [], d.2.map fun c => c.getD [])

theorem pyLen_arr3 (c : Option (List Row)) : pyLen (c.map arr3) = (c.getD []).length := by
  cases c with
  | none => rfl
  | some c => simp [pyLen, arr3_length]

theorem getD_arr3 (c : Option (List Row)) : (c.map arr3).getD [] = arr3 (c.getD []) := by
  cases c <;> rfl

theorem pyData_text3 (data : List (Option (List Row) × List (Option (List Row)))) (hlines : ∀ d ∈ data, d.2 ≠ [])
    (hfit : PyHeadsFit (pyData data)) :
    ∃ text body, pyDataText ((pyData data).map fun d => d.1 :: d.2) = some text ∧
      IsData text ((pyCurves data).map fun d => (d.1.length, d.2.map List.length)) body ∧
      fileNums body = (((pyCurves data).map fun d => d.1 :: d.2).flatten.map fun c => rowNums (c.map (valRow (sciVal 6)))).flatten := by
  obtain ⟨text, body, h1, h2, h3⟩ := pyData_text (pyData data) (by
    intro d hd
    obtain ⟨e, he, rfl⟩ := List.mem_map.1 hd
    simpa using hlines e he) hfit
  refine ⟨text, body, h1, ?_, ?_⟩
  · have : (pyData data).map pyCounts = (pyCurves data).map fun d => (d.1.length, d.2.map List.length) := by
      simp only [pyData, pyCurves, List.map_map]
      refine List.map_congr_left fun d _ => ?_
      simp only [Function.comp, pyCounts, pyLen_arr3, List.map_map, Prod.mk.injEq, true_and]
      refine List.map_congr_left fun c _ => ?_
      simp only [Function.comp, pyLen_arr3]
    rwa [this] at h2
  · rw [h3]
    congr 1
    simp only [pyData, pyCurves, List.map_map, List.map_flatten]
    congr 1
    refine List.map_congr_left fun d _ => ?_
    simp only [Function.comp, List.map_cons, List.map_map, getD_arr3, ← List.map_flatten, arr3_nums]
    congr 1
    refine List.map_congr_left fun c _ => ?_
    simp only [Function.comp, getD_arr3, arr3_nums]

/-- What is read. -/
theorem pyData_read (vmap : Bool) (path : List Char) (data : List (Option (List Row) × List (Option (List Row))))
    (hlines : ∀ d ∈ data, d.2 ≠ []) (hfit : PyHeadsFit (pyData data)) (hv : vmap = true → ∀ d ∈ data, d.1.getD [] = [])
    (hempty : ∀ d ∈ data, EmptyLinesLast (d.2.map fun c => c.getD []))
    (hasc : ∀ d ∈ data, Ascending (d.1.getD []) ∧ ∀ c ∈ d.2, Ascending (c.getD [])) :
    ∃ text, pyDataText ((pyData data).map fun d => d.1 :: d.2) = some text ∧
      readMain vmap fileNums path text = .ok ((pyCurves data).map fun d =>
        ⟨d.1.map (valRow (sciVal 6)), (d.2.filter (· ≠ [])).map fun c => c.map (valRow (sciVal 6))⟩) := by
  obtain ⟨text, body, h1, h2, h3⟩ := pyData_text3 data hlines hfit
  refine ⟨text, h1, read_sets vmap (fun x y h => sciVal_mono h) path text body _ h2 h3
    (fun hvm d hd => ?_) (fun d hd => ?_) (fun d hd => ?_)⟩ <;> (obtain ⟨d, hd', rfl⟩ := List.mem_map.1 hd; replace hd := hd')
  · exact hv hvm d hd
  · exact hempty d hd
  · refine ⟨(hasc d hd).1, fun l hl => ?_⟩
    obtain ⟨c, hc, rfl⟩ := List.mem_map.1 hl
    exact (hasc d hd).2 c hc

/-- **C114** (`data` of `setup`; partial: light curves without points behind all others, see `C114_empty`).  The light curves
handed over as arrays with three columns are those that the C code reads, with a relative accuracy of 5e-7. -/
theorem C114_read_partial (vmap : Bool) (path : List Char) (data : List (Option (List Row) × List (Option (List Row))))
    (hlines : ∀ d ∈ data, d.2 ≠ []) (hfit : PyHeadsFit (pyData data)) (hv : vmap = true → ∀ d ∈ data, d.1.getD [] = [])
    (hempty : ∀ d ∈ data, EmptyLinesLast (d.2.map fun c => c.getD []))
    (hasc : ∀ d ∈ data, Ascending (d.1.getD []) ∧ ∀ c ∈ d.2, Ascending (c.getD [])) :
    ∃ text sets, pyDataText ((pyData data).map fun d => d.1 :: d.2) = some text ∧ readMain vmap fileNums path text = .ok sets ∧
      List.Forall₂ (fun d s => SetTol (fun x => 1 / 2 * (10 : ℝ) ^ (-6 : ℤ) * |x|) d.1 d.2 s) (pyCurves data) sets := by
  obtain ⟨text, h1, h2⟩ := pyData_read vmap path data hlines hfit hv hempty hasc
  exact ⟨text, _, h1, h2, valSets_close (by simpa using sciVal_near 6) _⟩

/-- **C110** (`data` of `setup`).  The numbers of data sets and lines of the Python object are those of the C code exactly if all
light curves that are handed over as lines have points. -/
theorem C110_dims_data (vmap : Bool) (path : List Char) (data : List (Option (List Row) × List (Option (List Row))))
    (hlines : ∀ d ∈ data, d.2 ≠ []) (hfit : PyHeadsFit (pyData data)) (hv : vmap = true → ∀ d ∈ data, d.1.getD [] = [])
    (hempty : ∀ d ∈ data, EmptyLinesLast (d.2.map fun c => c.getD []))
    (hasc : ∀ d ∈ data, Ascending (d.1.getD []) ∧ ∀ c ∈ d.2, Ascending (c.getD [])) :
    ∃ text sets, pyDataText ((pyData data).map fun d => d.1 :: d.2) = some text ∧ readMain vmap fileNums path text = .ok sets ∧
      (pyDims ((pyData data).map fun d => d.1 :: d.2)).1 = sets.length ∧
      ((pyDims ((pyData data).map fun d => d.1 :: d.2)).2 = sets.map (fun s => s.lines.length) ↔
        ∀ d ∈ data, ∀ c ∈ d.2, c.getD [] ≠ []) := by
  obtain ⟨text, h1, h2⟩ := pyData_read vmap path data hlines hfit hv hempty hasc
  refine ⟨text, _, h1, h2, by simp [pyDims, pyData, pyCurves], ?_⟩
  simp only [pyDims, pyData, pyCurves, List.map_map, List.map_inj_left, Function.comp, List.length_map, List.length_cons,
    Nat.add_sub_cancel]
  refine forall_congr' fun d => forall_congr' fun _ => ?_
  rw [eq_comm, ← List.length_map (as := d.2) (fun c => c.getD []), List.length_filter_eq_length_iff]
  simp

/-- **C114** (`nmap`).  Every driving light curve and every responding light curve with points is read as a light curve of its
own, wherever the ones without points are. -/
theorem C114_nmap (path : List Char) (data : List (Option (List Row) × List (Option (List Row))))
    (hlines : ∀ d ∈ data, d.2 ≠ []) (hfit : PyHeadsFit (pyData data))
    (hasc : ∀ d ∈ data, Ascending (d.1.getD []) ∧ ∀ c ∈ d.2, Ascending (c.getD [])) :
    ∃ text sets, pyDataText ((pyData data).map fun d => d.1 :: d.2) = some text ∧ readNmap fileNums path text = .ok sets ∧
      List.Forall₂ (fun c s => SetTol (fun x => 1 / 2 * (10 : ℝ) ^ (-6 : ℤ) * |x|) c [] s)
        ((pyCurves data).map fun d => d.1 :: d.2.filter (· ≠ [])).flatten sets := by
  obtain ⟨text, body, h1, h2, h3⟩ := pyData_text3 data hlines hfit
  refine ⟨text, ((pyCurves data).map fun d => d.1 :: d.2.filter (· ≠ [])).flatten.map fun c => ⟨c.map (valRow (sciVal 6)), []⟩, h1, ?_,
    forall₂_map (fun c => ⟨forall₂_map (fun r => ⟨by simpa [valRow] using sciVal_near 6 r.1, by simpa [valRow] using sciVal_near 6 r.2.1,
      by simpa [valRow] using sciVal_near 6 r.2.2⟩) _, .nil⟩) _⟩
  rw [C42_nmap_partial fileNums path text body _ h2]
  · refine ⟨?_, ⟨[], ?_⟩, ?_⟩
    · simp only [List.map_map, List.map_flatten]
      congr 1
      refine List.map_congr_left fun d _ => ?_
      simp only [Function.comp, List.map_cons, List.length_map, List.cons.injEq, true_and]
      rw [List.filter_map]
      have : ((fun n => decide (0 < n)) ∘ List.length : List Row → Bool) = fun l => decide (l ≠ []) := by
        funext l
        simp [List.length_pos_iff]
      rw [this, List.map_map]
      refine List.map_congr_left fun l _ => ?_
      simp
    · rw [h3, List.append_nil, List.map_map]
      generalize pyCurves data = data
      clear h1 h2 h3 hasc hlines hfit
      induction data with
      | nil => rfl
      | cons d data ih =>
        simp only [List.map_cons, List.flatten_cons, List.map_append, List.flatten_append, ih, List.cons_append,
          Function.comp]
        congr 1
        congr 1
        generalize d.2 = ls
        clear ih
        induction ls with
        | nil => rfl
        | cons l ls ih =>
          simp only [List.map_cons, List.flatten_cons, ih]
          by_cases h : l = []
          · subst h; simp [rowNums]
          · rw [List.filter_cons_of_pos (by simpa using h)]
            simp
    · intro s hs
      obtain ⟨c, hc, rfl⟩ := List.mem_map.1 hs
      refine ⟨?_, rfl⟩
      have hca : Ascending c := by
        obtain ⟨l, hl, hcl⟩ := List.mem_flatten.1 hc
        obtain ⟨d, hd, rfl⟩ := List.mem_map.1 hl
        obtain ⟨d, hd', rfl⟩ := List.mem_map.1 hd
        replace hd := hd'
        rcases List.mem_cons.1 hcl with rfl | hcl
        · exact (hasc d hd).1
        · obtain ⟨x, hx, rfl⟩ := List.mem_map.1 (List.mem_filter.1 hcl).1
          exact (hasc d hd).2 x hx
      unfold Ascending at hca ⊢
      rw [List.pairwise_map]
      exact hca.imp fun hab => sciVal_mono hab
  · intro c hc
    obtain ⟨d, hd, rfl⟩ := List.mem_map.1 hc
    obtain ⟨d, hd', rfl⟩ := List.mem_map.1 hd
    replace hd := hd'
    simpa using hlines d hd

/-- **C114, the rest is false.** A responding light curve that is `None` or empty in front of one with points: undefined
behaviour. -/
theorem C114_empty (vmap : Bool) (path : List Char) (data : List (Option (List Row) × List (Option (List Row))))
    (hlines : ∀ d ∈ data, d.2 ≠ []) (hfit : PyHeadsFit (pyData data)) (hv : vmap = true → ∀ d ∈ data, d.1.getD [] = [])
    (d : Option (List Row) × List (Option (List Row))) (hd : d ∈ data) (i j : ℕ) (hij : i < j) (c : Option (List Row)) (r : Row)
    (l : List Row) (hi : d.2[i]? = some c) (hc : c = none ∨ c = some []) (hj : d.2[j]? = some (some (r :: l))) :
    ∃ text, pyDataText ((pyData data).map fun d => d.1 :: d.2) = some text ∧ readMain vmap fileNums path text = .ub := by
  obtain ⟨text, body, h1, h2, -⟩ := pyData_text3 data hlines hfit
  refine ⟨text, h1, C42_empty_line vmap fileNums path text body _ h2 ?_
    ((d.1.getD []).length, (d.2.map fun c => c.getD []).map List.length) ?_ i j (l.length + 1) hij ?_ ?_ (by omega)⟩
  · intro hvm c hc
    obtain ⟨d, hd, rfl⟩ := List.mem_map.1 hc
    obtain ⟨d, hd', rfl⟩ := List.mem_map.1 hd
    replace hd := hd'
    simp [hv hvm d hd]
  · exact List.mem_map.2 ⟨_, List.mem_map.2 ⟨d, hd, rfl⟩, rfl⟩
  · simp only [List.map_map, List.getElem?_map, hi, Option.map_some, Function.comp]
    rcases hc with rfl | rfl <;> rfl
  · simp only [List.map_map, List.getElem?_map, hj, Option.map_some, Function.comp]
    simp

/-! ### Times -/

theorem sciVal_julian {t : ℝ} (h1 : 10 ^ 6 ≤ t) (h2 : t < 10 ^ 7) : sciVal 6 t = rne t := by
  have hpos : 0 < t := by linarith [show (0 : ℝ) < 10 ^ 6 by norm_num]
  have hlog : Int.log 10 t = 6 := by
    refine le_antisymm ?_ ?_
    · have := (Int.lt_zpow_iff_log_lt (b := 10) (x := 7) (r := t) (by norm_num) hpos).1 (by push_cast; exact_mod_cast h2)
      omega
    · exact (Int.zpow_le_iff_le_log (b := 10) (x := 6) (r := t) (by norm_num) hpos).1 (by push_cast; exact_mod_cast h1)
  unfold sciVal
  rw [if_neg (not_lt.2 hpos.le), abs_of_pos hpos, sciAbs_pos hpos, hlog]
  norm_num

/-- **C114, what the accuracy means.** Of times in Julian days only the whole days reach the C code. -/
theorem C114_julian (vmap : Bool) (path : List Char) (data : List (Option (List Row) × List (Option (List Row))))
    (hlines : ∀ d ∈ data, d.2 ≠ []) (hfit : PyHeadsFit (pyData data)) (hv : vmap = true → ∀ d ∈ data, d.1.getD [] = [])
    (hempty : ∀ d ∈ data, EmptyLinesLast (d.2.map fun c => c.getD []))
    (hasc : ∀ d ∈ data, Ascending (d.1.getD []) ∧ ∀ c ∈ d.2, Ascending (c.getD []))
    (hjd : ∀ d ∈ data, ∀ c ∈ d.1 :: d.2, ∀ r ∈ c.getD [], (10 : ℝ) ^ 6 ≤ r.1 ∧ r.1 < 10 ^ 7) :
    ∃ text sets, pyDataText ((pyData data).map fun d => d.1 :: d.2) = some text ∧ readMain vmap fileNums path text = .ok sets ∧
      ∀ s ∈ sets, ∀ c ∈ s.con :: s.lines, ∀ r ∈ c, ∃ n : ℕ, r.1 = n := by
  obtain ⟨text, h1, h2⟩ := pyData_read vmap path data hlines hfit hv hempty hasc
  refine ⟨text, _, h1, h2, ?_⟩
  intro s hs c hc r hr
  obtain ⟨d, hd, rfl⟩ := List.mem_map.1 hs
  obtain ⟨d, hd', rfl⟩ := List.mem_map.1 hd
  replace hd := hd'
  rcases List.mem_cons.1 hc with rfl | hc
  · obtain ⟨q, hq, rfl⟩ := List.mem_map.1 hr
    obtain ⟨a, b⟩ := hjd d hd _ (by simp) q hq
    exact ⟨_, sciVal_julian a b⟩
  · obtain ⟨l, hl, rfl⟩ := List.mem_map.1 hc
    obtain ⟨x, hx, rfl⟩ := List.mem_map.1 (List.mem_filter.1 hl).1
    obtain ⟨q, hq, rfl⟩ := List.mem_map.1 hr
    obtain ⟨a, b⟩ := hjd d hd x (by simp [hx]) q hq
    exact ⟨_, sciVal_julian a b⟩

/-! ### Other numbers of columns -/

theorem setNums_length (sets : List FSet) :
    (setNums sets).length = 3 * (sets.map fun s => s.con.length + (s.lines.map List.length).sum).sum := by
  induction sets with
  | nil => rfl
  | cons s sets ih =>
    simp only [setNums, List.map_cons, List.flatten_cons, List.length_append, List.sum_cons, rowNums_length] at ih ⊢
    rw [ih]
    have : ∀ l : List (List Row), (l.map rowNums).flatten.length = 3 * (l.map List.length).sum := by
      intro l
      induction l with
      | nil => rfl
      | cons a l ih => simp only [List.map_cons, List.flatten_cons, List.length_append, List.sum_cons, rowNums_length, ih]; omega
    rw [this]
    omega

theorem sum_filter_pos (l : List ℕ) : (l.filter (0 < ·)).sum = l.sum := by
  induction l with
  | nil => rfl
  | cons a l ih =>
    by_cases h : 0 < a
    · rw [List.filter_cons_of_pos (by simpa using h), List.sum_cons, List.sum_cons, ih]
    · rw [List.filter_cons_of_neg (by simpa using h), List.sum_cons, ih]; omega

/-- **C114** (entries).  A data set needs a driving and a responding light curve: without them `setup` raises an exception, and only
then. -/
theorem C114_entries (data : List (List (Option PyArr))) :
    pyDataText data = none ↔ ∃ d ∈ data, d = [] ∨ ∃ a, d = [a] := by
  unfold pyDataText
  have hl : ∀ d : List (Option PyArr), d.length < 2 ↔ d = [] ∨ ∃ a, d = [a] := by
    rintro (_ | ⟨a, _ | ⟨b, d⟩⟩) <;> simp
  split
  · rename_i h
    simpa only [List.any_eq_true, decide_eq_true_eq, hl, true_iff] using h
  · rename_i h
    simp only [List.any_eq_true, decide_eq_true_eq, hl] at h
    exact ⟨fun h' => absurd h' (by simp), fun h' => absurd h' h⟩

example : pyDataText [[some [[1, 2, 3]], none], [some [[1, 2, 3]]]] = none := (C114_entries _).2 ⟨[some [[1, 2, 3]]], by simp, .inr ⟨_, rfl⟩⟩

example : pyDataText [[some [[1, 2, 3]], none]] ≠ none := fun h => by
  obtain ⟨d, hd, h⟩ := (C114_entries _).1 h
  simp only [List.mem_cons, List.not_mem_nil, or_false] at hd
  subst hd
  simp at h

/-- **C114** (columns).  Without a column of errors the program stops. -/
theorem C114_two_columns (vmap : Bool) (path : List Char) (data : List (Option PyArr × List (Option PyArr)))
    (hlines : ∀ d ∈ data, d.2 ≠ []) (hfit : PyHeadsFit data) (hv : vmap = true → ∀ d ∈ data, pyLen d.1 = 0)
    (hempty : ∀ d ∈ data, EmptyLast (d.2.map pyLen))
    (hcols : ∀ d ∈ data, ∀ a ∈ d.1 :: d.2, ∀ r ∈ a.getD [], r.length ≤ 2) (hpts : ∃ d ∈ data, ∃ a ∈ d.1 :: d.2, 0 < pyLen a) :
    ∃ text, pyDataText (data.map fun d => d.1 :: d.2) = some text ∧ readMain vmap fileNums path text = .exit := by
  obtain ⟨text, body, h1, h2, h3⟩ := pyData_text data hlines hfit
  refine ⟨text, h1, ?_⟩
  have hv' : vmap = true → ∀ c ∈ data.map pyCounts, c.1 = 0 := by
    intro hvm c hc
    obtain ⟨d, hd, rfl⟩ := List.mem_map.1 hc
    exact hv hvm d hd
  have he' : ∀ c ∈ data.map pyCounts, EmptyLast c.2 := by
    intro c hc
    obtain ⟨d, hd, rfl⟩ := List.mem_map.1 hc
    exact hempty d hd
  rcases C42_read_exit_partial vmap fileNums path text body _ h2 hv' he' with ⟨sets, hs⟩ | hs
  · exfalso
    obtain ⟨e1, ⟨rest, e2⟩, -⟩ := (C42_read_partial vmap fileNums path text body _ h2 hv' he' sets).1 hs
    have hlen := congrArg List.length (h3.symm.trans e2)
    rw [List.length_append, setNums_length] at hlen
    have e3 : sets.map (fun s => s.con.length + (s.lines.map List.length).sum) = data.map fun d => pyLen d.1 + (d.2.map pyLen).sum := by
      have := congrArg (List.map fun c : ℕ × List ℕ => c.1 + c.2.sum) e1
      rw [List.map_map, List.map_map, List.map_map] at this
      simpa [Function.comp_def, pyCounts, sum_filter_pos] using this
    rw [e3] at hlen
    have h4 : (((data.map fun d => d.1 :: d.2).flatten.map fun a => (a.getD []).flatten.map (sciVal 6)).flatten).length ≤
        2 * (data.map fun d => pyLen d.1 + (d.2.map pyLen).sum).sum := by
      have harr : ∀ a : PyArr, (∀ r ∈ a, r.length ≤ 2) → a.flatten.length ≤ 2 * a.length := by
        intro a
        induction a with
        | nil => intro _; simp
        | cons r a ih =>
          intro h
          have := ih fun q hq => h q (by simp [hq])
          have := h r (by simp)
          simp only [List.flatten_cons, List.length_append, List.length_cons]
          omega
      have hls : ∀ l : List (Option PyArr), (∀ a ∈ l, ∀ r ∈ a.getD [], r.length ≤ 2) →
          ((l.map fun a => (a.getD []).flatten.map (sciVal 6)).flatten).length ≤ 2 * (l.map pyLen).sum := by
        intro l
        induction l with
        | nil => intro _; simp
        | cons a l ih =>
          intro h
          have h1 := ih fun q hq => h q (by simp [hq])
          have h2 := harr (a.getD []) (h a (by simp))
          simp only [List.map_cons, List.flatten_cons, List.length_append, List.sum_cons, List.length_map]
          have : pyLen a = (a.getD []).length := rfl
          omega
      clear hlen e3 e2 e1 hs he' hv' h3 h2 h1 hempty hv hfit hlines hpts
      induction data with
      | nil => simp
      | cons d data ih =>
        have h1 := ih fun d hd => hcols d (by simp [hd])
        have h2 := hls (d.1 :: d.2) (hcols d (by simp))
        simp only [List.map_cons, List.flatten_cons, List.map_append, List.flatten_append, List.length_append, List.sum_cons] at h1 h2 ⊢
        omega
    have h5 : 0 < (data.map fun d => pyLen d.1 + (d.2.map pyLen).sum).sum := by
      obtain ⟨d, hd, a, ha, hp⟩ := hpts
      have : pyLen d.1 + (d.2.map pyLen).sum ≤ (data.map fun d => pyLen d.1 + (d.2.map pyLen).sum).sum :=
        List.le_sum_of_mem (List.mem_map.2 ⟨d, hd, rfl⟩)
      rcases List.mem_cons.1 ha with rfl | ha
      · omega
      · have := List.le_sum_of_mem (List.mem_map.2 ⟨a, ha, rfl⟩ : pyLen a ∈ d.2.map pyLen)
        omega
    omega
  · exact hs

/-- **C114, the rest is false.** With four columns the program can go on, but not with the data given: the second time is what
is in the fourth column of the first row. -/
theorem C114_four_columns (path : List Char) (x0 x1 x2 x3 : ℝ) (xs : List ℝ) (row : List ℝ) (rows : PyArr)
    (lines : List (Option PyArr)) (data : List (Option PyArr × List (Option PyArr)))
    (hlines : lines ≠ [] ∧ ∀ d ∈ data, d.2 ≠ []) (hfit : PyHeadsFit ((some ((x0 :: x1 :: x2 :: x3 :: xs) :: row :: rows), lines) :: data))
    (hempty : EmptyLast (lines.map pyLen) ∧ ∀ d ∈ data, EmptyLast (d.2.map pyLen)) :
    ∃ text, pyDataText (((some ((x0 :: x1 :: x2 :: x3 :: xs) :: row :: rows), lines) :: data).map fun d => d.1 :: d.2) = some text ∧
      ∀ sets, readMain false fileNums path text = .ok sets → ∃ s ss, sets = s :: ss ∧
        ∃ r0 r1 rs, s.con = r0 :: r1 :: rs ∧ r1.1 = sciVal 6 x3 := by
  obtain ⟨text, body, h1, h2, h3⟩ := pyData_text ((some ((x0 :: x1 :: x2 :: x3 :: xs) :: row :: rows), lines) :: data) (by
    intro d hd
    rcases List.mem_cons.1 hd with rfl | hd
    · exact hlines.1
    · exact hlines.2 d hd) hfit
  refine ⟨text, h1, fun sets hs => ?_⟩
  obtain ⟨e1, ⟨rest, e2⟩, -⟩ := (C42_read_partial false fileNums path text body _ h2 (by simp) (by
    intro c hc
    obtain ⟨d, hd, rfl⟩ := List.mem_map.1 hc
    rcases List.mem_cons.1 hd with rfl | hd
    · exact hempty.1
    · exact hempty.2 d hd) sets).1 hs
  rw [h3] at e2
  cases sets with
  | nil => simp at e1
  | cons s ss =>
    refine ⟨s, ss, rfl, ?_⟩
    simp only [List.map_cons, List.cons.injEq, Prod.mk.injEq, pyCounts, pyLen, Option.getD_some, List.length_cons] at e1
    match h : s.con with
    | [] => rw [h] at e1; simp at e1
    | [_] => rw [h] at e1; simp at e1
    | r0 :: r1 :: rs =>
      refine ⟨r0, r1, rs, rfl, ?_⟩
      rw [setNums, List.map_cons (l := ss), h] at e2
      simp only [rowNums, List.map_cons, List.flatten_cons, List.cons_append, List.nil_append, Option.getD_some, List.cons.injEq] at e2
      exact e2.2.2.2.1.symm

/-! ### `format_mica` -/

theorem savetxtSep_yields (data : List PyArr) : Yields (savetxtSep fmt6 data) (data.map fun a => a.flatten.map rd6).flatten := by
  cases data with
  | nil => exact .spaces (by simp [savetxtSep])
  | cons a l =>
    have := (yields_savetxt yields_fmt6 a).append (Yields.flatten (l := l) (f := fun b => '\n' :: savetxt fmt6 b)
      (g := fun b => b.flatten.map rd6) fun b _ => by
        have := (Yields.spaces (b := ['\n']) (by decide)).append (yields_savetxt yields_fmt6 b)
        simpa using this)
    simpa [savetxtSep] using this

/-- Header lines of `format_mica`. -/
def MicaHeadsFit (data : List (List Row × List (List Row))) : Prop :=
  (pyHead [data.length]).length < 255 ∧ ∀ d ∈ data, (pyHead (d.1.length :: d.2.map List.length)).length < 255

theorem rd6_mono (x y : ℝ) (h : x ≤ y) : rd6 x ≤ rd6 y := by
  have hm : ∀ a b : ℝ, |a| ≤ |b| → micro a ≤ micro b := by
    intro a b hab
    unfold micro
    exact Nat.floor_mono (by linarith)
  unfold rd6
  split
  · rename_i hx
    split
    · rename_i hy
      have := hm y x (by rw [abs_of_neg hx, abs_of_neg hy]; linarith)
      have : (micro y : ℝ) ≤ micro x := by exact_mod_cast this
      have : (micro y : ℝ) / 10 ^ 6 ≤ (micro x : ℝ) / 10 ^ 6 := by gcongr
      linarith
    · have h1 : (0 : ℝ) ≤ (micro x : ℝ) / 10 ^ 6 := by positivity
      have h2 : (0 : ℝ) ≤ (micro y : ℝ) / 10 ^ 6 := by positivity
      linarith
  · rename_i hx
    rw [if_neg (by linarith)]
    have := hm x y (by rw [abs_of_nonneg (by linarith), abs_of_nonneg (by linarith)]; exact h)
    have : (micro x : ℝ) ≤ micro y := by exact_mod_cast this
    gcongr

theorem micaText_read (path : List Char) (data : List (List Row × List (List Row))) (hfit : MicaHeadsFit data)
    (hempty : ∀ d ∈ data, EmptyLinesLast d.2) (hasc : ∀ d ∈ data, Ascending d.1 ∧ ∀ l ∈ d.2, Ascending l) :
    readMain false fileNums path (micaText (data.map fun d => (arr3 d.1, d.2.map arr3))) = .ok (data.map fun d =>
        ⟨d.1.map (valRow rd6), (d.2.filter (· ≠ [])).map fun c => c.map (valRow rd6)⟩) := by
  refine read_sets (val := rd6) false rd6_mono path _
    (savetxtSep fmt6 ((data.map fun d => (arr3 d.1, d.2.map arr3)).map fun d => d.1 :: d.2).flatten) data ?_ ?_ (by simp) hempty hasc
  · have := pyHead_data (data.map fun d => (d.1.length, d.2.map List.length))
      (savetxtSep fmt6 ((data.map fun d => (arr3 d.1, d.2.map arr3)).map fun d => d.1 :: d.2).flatten)
      (by simpa using hfit.1) (by
        intro c hc
        obtain ⟨d, hd, rfl⟩ := List.mem_map.1 hc
        exact hfit.2 d hd)
    unfold micaText
    simpa [List.map_map, Function.comp_def, arr3_length] using this
  · rw [(savetxtSep_yields _).nums]
    congr 1
    simp only [List.map_map, List.map_flatten]
    congr 1
    refine List.map_congr_left fun d _ => ?_
    simp only [Function.comp, List.map_cons, List.map_map, ← List.map_flatten, arr3_nums]
    congr 1
    refine List.map_congr_left fun c _ => ?_
    simp only [Function.comp, arr3_nums]

/-- **C114** (`format_mica`, partial: the accuracy is not relative; see `C114_format_zero`).  The light curves are those that
the C code reads, within 5e-7. -/
theorem C114_format_partial (path : List Char) (data : List (List Row × List (List Row))) (hfit : MicaHeadsFit data)
    (hempty : ∀ d ∈ data, EmptyLinesLast d.2) (hasc : ∀ d ∈ data, Ascending d.1 ∧ ∀ l ∈ d.2, Ascending l) :
    ∃ sets, readMain false fileNums path (micaText (data.map fun d => (arr3 d.1, d.2.map arr3))) = .ok sets ∧
      List.Forall₂ (fun d s => SetTol (fun _ => 1 / 2 / 10 ^ 6) d.1 d.2 s) data sets :=
  ⟨_, micaText_read path data hfit hempty hasc, valSets_close rd6_near _⟩

/-- **C114, the rest is false.** Light curves with fluxes and errors below 5e-7, as in units of erg/s/cm² and the like, reach
the C code as zeros with zero errors. -/
theorem C114_format_zero (path : List Char) (data : List (List Row × List (List Row))) (hfit : MicaHeadsFit data)
    (hempty : ∀ d ∈ data, EmptyLinesLast d.2) (hasc : ∀ d ∈ data, Ascending d.1 ∧ ∀ l ∈ d.2, Ascending l)
    (hsmall : ∀ d ∈ data, ∀ c ∈ d.1 :: d.2, ∀ r ∈ c, |r.2.1| < 1 / 2 / 10 ^ 6 ∧ |r.2.2| < 1 / 2 / 10 ^ 6) :
    ∃ sets, readMain false fileNums path (micaText (data.map fun d => (arr3 d.1, d.2.map arr3))) = .ok sets ∧
      ∀ s ∈ sets, ∀ c ∈ s.con :: s.lines, ∀ r ∈ c, r.2.1 = 0 ∧ r.2.2 = 0 := by
  refine ⟨_, micaText_read path data hfit hempty hasc, ?_⟩
  have hz : ∀ x : ℝ, |x| < 1 / 2 / 10 ^ 6 → rd6 x = 0 := by
    intro x hx
    have hm : micro x = 0 := by
      unfold micro
      rw [Nat.floor_eq_zero]
      rw [lt_div_iff₀ (by norm_num)] at hx
      linarith
    unfold rd6
    simp [hm]
  intro s hs c hc r hr
  obtain ⟨d, hd, rfl⟩ := List.mem_map.1 hs
  rcases List.mem_cons.1 hc with rfl | hc
  · obtain ⟨q, hq, rfl⟩ := List.mem_map.1 hr
    obtain ⟨a, b⟩ := hsmall d hd _ (by simp) q hq
    exact ⟨hz _ a, hz _ b⟩
  · obtain ⟨l, hl, rfl⟩ := List.mem_map.1 hc
    obtain ⟨q, hq, rfl⟩ := List.mem_map.1 hr
    obtain ⟨a, b⟩ := hsmall d hd l (by simp [(List.mem_filter.1 hl).1]) q hq
    exact ⟨hz _ a, hz _ b⟩

/-- **C114** (`format_mica` without driving light curve, partial as `C114_format_partial`).  In the virtual mode the C code reads
the responding light curves within 5e-7 and no driving light curve. -/
theorem C114_format_none_partial (path : List Char) (lines : List (List Row))
    (hfit : (pyHead (0 :: lines.map List.length)).length < 255) (hempty : EmptyLinesLast lines) (hasc : ∀ l ∈ lines, Ascending l) :
    ∃ s, readMain true fileNums path (micaNoneText (lines.map arr3)) = .ok [s] ∧ s.con = [] ∧
      SetTol (fun _ => 1 / 2 / 10 ^ 6) [] lines s := by
  have h := read_sets (val := rd6) true rd6_mono path (micaNoneText (lines.map arr3))
    (((lines.map arr3).map fun a => savetxt fmt6 a ++ ['\n']).flatten) [([], lines)] ?_ ?_ (by simp) (by simpa using hempty)
    (by simpa [Ascending] using hasc)
  · have hc := valSets_close (val := rd6) rd6_near [(([] : List Row), lines)]
    simp only [List.map_cons, List.map_nil] at h hc
    refine ⟨_, h, rfl, ?_⟩
    cases hc with
    | cons h1 _ => exact h1
  · have := pyHead_data [(0, lines.map List.length)] (((lines.map arr3).map fun a => savetxt fmt6 a ++ ['\n']).flatten)
      (by show (pyHead [1]).length < 255; decide) (by simpa using hfit)
    have h1 : Nat.toDigits 10 1 = ['1'] := by decide
    unfold micaNoneText
    simpa [List.map_map, Function.comp_def, arr3_length, h1] using this
  · have hy : Yields (((lines.map arr3).map fun a => savetxt fmt6 a ++ ['\n']).flatten)
        ((lines.map arr3).map fun a => a.flatten.map rd6).flatten :=
      Yields.flatten (l := lines.map arr3) (f := fun a => savetxt fmt6 a ++ ['\n']) (g := fun a => a.flatten.map rd6) fun a _ => by
        have := (yields_savetxt yields_fmt6 a).append (Yields.spaces (b := ['\n']) (by decide))
        simpa using this
    rw [hy.nums]
    simp only [List.map_map, List.map_cons, List.map_nil, List.flatten_cons, List.flatten_nil, List.append_nil, rowNums, List.nil_append]
    congr 1
    refine List.map_congr_left fun c _ => ?_
    simp only [Function.comp, arr3_nums]
    simp [rowNums, List.map_map]

/-- Two responding light curves. -/
example (path : List Char) : ∃ s, readMain true fileNums path (micaNoneText ([[((0 : ℝ), (1 : ℝ), (1 : ℝ)), (1, 2, 1)], [(3, 1, 1)]].map arr3)) = .ok [s] ∧
    s.con = [] ∧ SetTol (fun _ => 1 / 2 / 10 ^ 6) [] [[(0, 1, 1), (1, 2, 1)], [(3, 1, 1)]] s := by
  refine C114_format_none_partial path _ (by decide) ?_ ?_
  · intro i j hij hi
    match i with
    | 0 => simp at hi
    | 1 => simp at hi
    | i + 2 => simp at hi
  · simp [Ascending]

/-! ### Cases -/

/-- A driving light curve with two points in Julian days, a responding one and one that is `None`. -/
noncomputable def pyDataEx : List (Option (List Row) × List (Option (List Row))) :=
  [(some [(2450000.1, 1, 0.1), (2450000.4, 2, 0.1)], [some [(2450010, 1, 0.1)], none])]

theorem pyDataEx_ok : (∀ d ∈ pyDataEx, d.2 ≠ []) ∧ PyHeadsFit (pyData pyDataEx) ∧
    (∀ d ∈ pyDataEx, EmptyLinesLast (d.2.map fun c => c.getD [])) ∧
    (∀ d ∈ pyDataEx, Ascending (d.1.getD []) ∧ ∀ c ∈ d.2, Ascending (c.getD [])) ∧
    ∀ d ∈ pyDataEx, ∀ c ∈ d.1 :: d.2, ∀ r ∈ c.getD [], (10 : ℝ) ^ 6 ≤ r.1 ∧ r.1 < 10 ^ 7 := by
  refine ⟨by simp [pyDataEx], ⟨by decide, ?_⟩, ?_, ?_, ?_⟩
  · simp only [pyData, pyDataEx, List.map_cons, List.map_nil, List.mem_cons, List.not_mem_nil, or_false, forall_eq, pyLen_arr3]
    decide
  · simp only [pyDataEx, List.mem_cons, List.not_mem_nil, or_false, forall_eq, List.map_cons, List.map_nil, Option.getD_some, Option.getD_none]
    intro i j hij hi l hl
    match i, j with
    | 0, j => simp at hi
    | i + 1, 0 => omega
    | i + 1, 1 => omega
    | i + 1, j + 2 => simp at hl
  · simp only [pyDataEx, List.mem_cons, List.not_mem_nil, or_false, forall_eq, Option.getD_some, Ascending]
    refine ⟨by norm_num, ?_⟩
    rintro c (rfl | rfl) <;> simp
  · simp only [pyDataEx, List.mem_cons, List.not_mem_nil, or_false, forall_eq]
    rintro c (rfl | rfl | rfl) r hr
    · simp only [Option.getD_some, List.mem_cons, List.not_mem_nil, or_false] at hr
      rcases hr with rfl | rfl <;> norm_num
    · simp only [Option.getD_some, List.mem_cons, List.not_mem_nil, or_false] at hr
      subst hr; norm_num
    · simp at hr

/-- The two points of the driving light curve, a third of a day apart, get the same time. -/
example : sciVal 6 2450000.1 = sciVal 6 2450000.4 := by
  rw [sciVal_julian (by norm_num) (by norm_num), sciVal_julian (by norm_num) (by norm_num)]
  have h1 : ⌊(2450000.1 : ℝ)⌋₊ = 2450000 := by rw [Nat.floor_eq_iff (by norm_num)]; norm_num
  have h2 : ⌊(2450000.4 : ℝ)⌋₊ = 2450000 := by rw [Nat.floor_eq_iff (by norm_num)]; norm_num
  unfold rne
  rw [h1, h2, if_pos (by norm_num), if_pos (by norm_num)]

/-- The responding light curves the other way round: undefined behaviour. -/
example (path : List Char) : ∃ text, pyDataText ((pyData [(some [(0, 1, 1)], [none, some [((1 : ℝ), (1 : ℝ), (1 : ℝ))]])]).map
    fun d => d.1 :: d.2) = some text ∧ readMain false fileNums path text = .ub :=
  C114_empty false path _ (by simp) ⟨by decide, by
    simp only [pyData, List.map_cons, List.map_nil, List.mem_cons, List.not_mem_nil, or_false, forall_eq, pyLen_arr3]
    decide⟩ (by simp) _ (List.mem_singleton.2 rfl) 0 1 (by norm_num) none (1, 1, 1) [] rfl (.inl rfl) rfl

/-- `format_mica` with fluxes of 3e-15. -/
example (path : List Char) : ∃ sets, readMain false fileNums path
    (micaText ([([((0 : ℝ), (3e-15 : ℝ), (1e-16 : ℝ)), (1, 4e-15, 1e-16)], [[(5, 3e-15, 1e-16)]])].map fun d => (arr3 d.1, d.2.map arr3))) = .ok sets ∧
      ∀ s ∈ sets, ∀ c ∈ s.con :: s.lines, ∀ r ∈ c, r.2.1 = 0 ∧ r.2.2 = 0 := by
  refine C114_format_zero path _ ⟨by decide, ?_⟩ ?_ ?_ ?_
  · simp only [List.mem_cons, List.not_mem_nil, or_false, forall_eq]
    decide
  · simp only [List.mem_cons, List.not_mem_nil, or_false, forall_eq]
    intro i j hij hi
    match i with
    | 0 => simp at hi
    | i + 1 => simp at hi
  · simp only [List.mem_cons, List.not_mem_nil, or_false, forall_eq, Ascending]
    norm_num
  · simp only [List.mem_cons, List.not_mem_nil, or_false, forall_eq]
    rintro c (rfl | rfl) r hr
    · rcases List.mem_cons.1 hr with rfl | hr
      · norm_num [abs_lt]
      · rw [List.mem_singleton.1 hr]; norm_num [abs_lt]
    · rw [List.mem_singleton.1 hr]; norm_num [abs_lt]

/-- Two columns. -/
example (path : List Char) : ∃ text, pyDataText ([((some [[0, 1], [1, 1]] : Option PyArr), [(some [[2, 1]] : Option PyArr)])].map
    fun d => d.1 :: d.2) = some text ∧ readMain false fileNums path text = .exit :=
  C114_two_columns false path _ (by simp) ⟨by decide, by
    simp only [List.mem_cons, List.not_mem_nil, or_false, forall_eq]; decide⟩ (by simp)
    (by
      simp only [List.mem_cons, List.not_mem_nil, or_false, forall_eq]
      exact emptyLast_pos (by simp [pyLen]))
    (by simp) ⟨_, List.mem_singleton.2 rfl, _, List.mem_cons_self, by simp [pyLen]⟩

/-- Four columns, with which the program goes on: there are three points, as announced, but other ones. -/
example (path : List Char) : ∃ text sets, pyDataText ([((some [[0, 1, 1, 5], [6, 1, 1, 7]] : Option PyArr), [(some [[8, 1, 1, 9]] : Option PyArr)])].map
    fun d => d.1 :: d.2) = some text ∧ readMain false fileNums path text = .ok sets := by
  obtain ⟨text, body, h1, h2, h3⟩ := pyData_text [((some [[0, 1, 1, 5], [6, 1, 1, 7]] : Option PyArr), [(some [[8, 1, 1, 9]] : Option PyArr)])]
    (by simp) ⟨by decide, by simp only [List.mem_cons, List.not_mem_nil, or_false, forall_eq]; decide⟩
  refine ⟨text, [⟨[(sciVal 6 0, sciVal 6 1, sciVal 6 1), (sciVal 6 5, sciVal 6 6, sciVal 6 1)], [[(sciVal 6 1, sciVal 6 7, sciVal 6 8)]]⟩], h1, ?_⟩
  rw [C42_read_partial false fileNums path text body _ h2 (by simp) (by
    simp only [List.map_cons, List.map_nil, List.mem_cons, List.not_mem_nil, or_false, forall_eq]
    exact emptyLast_pos (by simp [pyCounts, pyLen]))]
  refine ⟨by simp [pyCounts, pyLen], ⟨[sciVal 6 1, sciVal 6 1, sciVal 6 9], by rw [h3]; simp [setNums, rowNums]⟩, ?_⟩
  simp only [List.mem_cons, List.not_mem_nil, or_false, forall_eq, Ascending]
  refine ⟨?_, by simp⟩
  simp only [List.pairwise_cons, List.mem_cons, List.not_mem_nil, or_false, forall_eq, false_imp_iff, implies_true,
    List.Pairwise.nil, and_true]
  exact sciVal_mono (by norm_num)

end Mica
