import Verif.Proof.Data

/-!
# C42: data file header and body are read consistently

`read_data` (src/read.c:534-879) on files in the documented format.  The full statement covers empty
light curves anywhere in a header line; the code handles them only behind all light curves with
points (`C42_read_partial`, `C42_empty_line`), and in the mode `nmap` only header lines with at least
one line light curve (`C42_nmap_partial`, `C42_nmap_single`).
-/

namespace Mica

/-- **C42.** For a file in the documented format whose empty light curves come last, exactly those
data sets are read whose light curves have the listed numbers of points, hold the numbers of the
body in the order continuum, lines, next set, and have non-decreasing times.  Missing: empty light
curves before non-empty ones, see `C42_empty_line`. -/
theorem C42_read_partial (vmap : Bool) (nums : List Char → List ℝ) (path file body : List Char)
    (counts : List (ℕ × List ℕ)) (hfile : IsData file counts body)
    (hvmap : vmap = true → ∀ c ∈ counts, c.1 = 0) (hempty : ∀ c ∈ counts, EmptyLast c.2)
    (sets : List FSet) :
    readMain vmap nums path file = .ok sets ↔
      sets.map (fun s => (s.con.length, s.lines.map List.length))
          = counts.map (fun c => (c.1, c.2.filter (0 < ·))) ∧
        (∃ rest, nums body = setNums sets ++ rest) ∧
        ∀ s ∈ sets, Ascending s.con ∧ ∀ r ∈ s.lines, Ascending r := by
  rw [readMain_header nums path hfile hvmap hempty, readSets_iff]

/-- **C42.** In all other cases the program stops: it neither goes on with part of the data nor runs
into undefined behaviour. -/
theorem C42_read_exit_partial (vmap : Bool) (nums : List Char → List ℝ) (path file body : List Char)
    (counts : List (ℕ × List ℕ)) (hfile : IsData file counts body)
    (hvmap : vmap = true → ∀ c ∈ counts, c.1 = 0) (hempty : ∀ c ∈ counts, EmptyLast c.2) :
    (∃ sets, readMain vmap nums path file = .ok sets) ∨ readMain vmap nums path file = .exit := by
  rw [readMain_header nums path hfile hvmap hempty]
  exact readSets_safe _ _

/-- **C42, negation.** If in some header line an empty line light curve precedes one with points, the
number of points of a light curve is used without ever having been set. -/
theorem C42_empty_line (vmap : Bool) (nums : List Char → List ℝ) (path file body : List Char)
    (counts : List (ℕ × List ℕ)) (hfile : IsData file counts body)
    (hvmap : vmap = true → ∀ c ∈ counts, c.1 = 0)
    (c : ℕ × List ℕ) (hc : c ∈ counts) (i j m : ℕ) (hij : i < j) (hi : c.2[i]? = some 0)
    (hj : c.2[j]? = some m) (hm : 0 < m) : readMain vmap nums path file = .ub := by
  refine readMain_ub nums path hfile hvmap fun hall => ?_
  have := hall c hc i j hij hi m hj
  omega

/-- **C42.** In the mode `nmap` each light curve of the file becomes a data set of its own, in the
order of the file and without the empty lines.  Missing: header lines without a line light curve,
see `C42_nmap_single`. -/
theorem C42_nmap_partial (nums : List Char → List ℝ) (path file body : List Char)
    (counts : List (ℕ × List ℕ)) (hfile : IsData file counts body) (hlines : ∀ c ∈ counts, c.2 ≠ [])
    (sets : List FSet) :
    readNmap nums path file = .ok sets ↔
      sets.map (fun s => s.con.length) = (counts.map fun c => c.1 :: c.2.filter (0 < ·)).flatten ∧
        (∃ rest, nums body = (sets.map fun s => rowNums s.con).flatten ++ rest) ∧
        ∀ s ∈ sets, Ascending s.con ∧ s.lines = [] := by
  rw [readNmap_header nums path hfile hlines, readSets_iff]
  generalize (counts.map fun c => c.1 :: c.2.filter (0 < ·)).flatten = ns
  have hshape : sets.map (fun s => (s.con.length, s.lines.map List.length)) = ns.map (fun n => (n, ([] : List ℕ)))
      ↔ sets.map (fun s => s.con.length) = ns ∧ ∀ s ∈ sets, s.lines = [] := by
    induction sets generalizing ns with
    | nil => cases ns <;> simp
    | cons s sets ih =>
      cases ns with
      | nil => simp
      | cons n ns =>
        simp only [List.map_cons, List.cons.injEq, Prod.mk.injEq, List.map_eq_nil_iff, ih, List.forall_mem_cons]
        tauto
  rw [hshape]
  constructor
  · rintro ⟨⟨h1, h2⟩, ⟨rest, h3⟩, h4⟩
    refine ⟨h1, ⟨rest, ?_⟩, fun s hs => ⟨(h4 s hs).1, h2 s hs⟩⟩
    rw [h3, setNums, List.map_congr_left fun s hs => by rw [h2 s hs]]
    simp
  · rintro ⟨h1, ⟨rest, h2⟩, h3⟩
    refine ⟨⟨h1, fun s hs => (h3 s hs).2⟩, ⟨rest, ?_⟩, fun s hs => ⟨(h3 s hs).1, ?_⟩⟩
    · rw [h2, setNums]
      congr 2
      refine List.map_congr_left fun s hs => ?_
      rw [(h3 s hs).2]
      simp
    · rw [(h3 s hs).2]; simp

/-- **C42, negation.** In the mode `nmap` a header line without line light curves makes the reader
write through a null pointer. -/
theorem C42_nmap_single (nums : List Char → List ℝ) (path file body : List Char)
    (counts : List (ℕ × List ℕ)) (hfile : IsData file counts body) (c : ℕ × List ℕ) (hc : c ∈ counts)
    (hnone : c.2 = []) : readNmap nums path file = .ub :=
  readNmap_ub nums path hfile fun hall => hall c hc hnone

/-- **C42, negation.** A negative number of continuum points is not rejected: the reader goes on with it
(here for the first data set; the number of lines does not matter). -/
theorem C42_negative (vmap : Bool) (nums : List Char → List ℝ) (path first a r rest : List Char) (m n : ℕ)
    (hm : IsHead first m []) (h1 : 1 ≤ m) (hn : 1 ≤ n) (hfl : first.length < 255)
    (ha : ∀ c ∈ a, c = ' ' ∨ c = '\t') (hr : NoDigit (r ++ ['\n'])) (hnl : '\n' ∉ r)
    (hlen : ('#' :: (a ++ '-' :: (Nat.toDigits 10 n ++ r))).length < 255) :
    readMain vmap nums path (first ++ '\n' :: ('#' :: (a ++ '-' :: (Nat.toDigits 10 n ++ r)) ++ '\n' :: rest)) = .ub := by
  obtain ⟨ws, h2, h3, -⟩ := head_parts hm ['\n'] noDigit_newline (by decide)
  have hdig : ∀ c ∈ Nat.toDigits 10 n, c.isDigit = true := fun c hc =>
    Nat.isDigit_of_mem_toDigits (by norm_num) (by norm_num) hc
  have hline : '\n' ∉ '#' :: (a ++ '-' :: (Nat.toDigits 10 n ++ r)) := by
    simp only [List.mem_cons, List.mem_append, not_or]
    refine ⟨by decide, fun h => ?_, by decide, fun h => ?_, hnl⟩
    · rcases ha _ h with h | h <;> revert h <;> decide
    · have := hdig _ h; revert this; decide
  have hfirst : '\n' ∉ first := head_no_newline hm
  have hscan : scanInt ((a ++ '-' :: (Nat.toDigits 10 n ++ r)) ++ ['\n']) = some (-(n : ℤ)) := by
    have hs : skipSpace ((a ++ '-' :: (Nat.toDigits 10 n ++ r)) ++ ['\n']) = '-' :: (Nat.toDigits 10 n ++ (r ++ ['\n'])) := by
      rw [List.append_assoc, skipSpace_append fun c hc => blank_space (ha c hc)]
      simp [skipSpace, isSpaceC]
    unfold scanInt
    rw [hs]
    simp only [scanNat_digits Nat.toDigits_ne_nil hdig hr, digitsVal_toDigits]
    rfl
  obtain ⟨k, rfl⟩ := Nat.exists_eq_add_of_le' h1
  unfold readMain
  rw [fgetsBuf_line hfirst hfl]
  simp only [h3, Option.getD_some, Int.toNat_natCast]
  rw [takeLines, fgetsBuf_line hline hlen]
  have hh : headSet vmap ('#' :: (a ++ '-' :: (Nat.toDigits 10 n ++ r)) ++ ['\n']) none = .ub := by
    unfold headSet
    rw [List.cons_append, List.drop_succ_cons, List.drop_zero, hscan]
    simp only
    rw [if_pos (by omega)]
  simp only [headSets, hh]
  rfl

theorem takeLines_eof (k : ℕ) (buf : List Char) : takeLines k buf [] = (List.replicate k buf, []) := by
  induction k with
  | zero => rfl
  | succ k ih => rw [takeLines, fgetsBuf, ih, List.replicate_succ]

theorem takeLines_short {ls : List (List Char)} {buf : List Char} (h : ∀ l ∈ ls, '\n' ∉ l) (hl : ∀ l ∈ ls, l.length < 255)
    (k : ℕ) :
    takeLines (ls.length + k) (buf ++ ['\n']) (ls.map fun l => l ++ ['\n']).flatten =
      ((ls ++ List.replicate k (ls.getLast?.getD buf)).map (· ++ ['\n']), []) := by
  induction ls generalizing buf with
  | nil => simp [takeLines_eof]
  | cons l ls ih =>
    have e : ((l :: ls).map fun l => l ++ ['\n']).flatten = l ++ ('\n' :: (ls.map fun l => l ++ ['\n']).flatten) := by simp
    rw [e, List.length_cons, Nat.add_right_comm, takeLines, fgetsBuf_line (h l (by simp)) (hl l (by simp)),
      ih (fun x hx => h x (by simp [hx])) (fun x hx => hl x (by simp [hx]))]
    cases ls <;> simp [List.getLast?_cons]

theorem readCurves_nil {ns : List ℕ} : (∃ n ∈ ns, 0 < n) ∧ readCurves ns [] = .exit ∨
    (∀ n ∈ ns, n = 0) ∧ ∃ a, readCurves ns [] = .ok (a, []) := by
  induction ns with
  | nil => exact .inr ⟨by simp, [], rfl⟩
  | cons n ns ih =>
    cases n with
    | succ n => exact .inl ⟨⟨n + 1, by simp, by omega⟩, rfl⟩
    | zero =>
      rcases ih with ⟨⟨m, hm, h0⟩, h⟩ | ⟨h0, a, h⟩
      · refine .inl ⟨⟨m, by simp [hm], h0⟩, ?_⟩
        simp only [readCurves, readCurve, takeRows, List.map_nil, unsorted, Bool.false_eq_true, if_false, Res.ok_bind, h]
        rfl
      · refine .inr ⟨by simpa using h0, [] :: a, ?_⟩
        simp only [readCurves, readCurve, takeRows, List.map_nil, unsorted, Bool.false_eq_true, if_false, Res.ok_bind, h]

theorem readSets_nil {counts : List (ℕ × List ℕ)} (h : ∃ c ∈ counts, 0 < c.1 ∨ ∃ n ∈ c.2, 0 < n) :
    readSets counts [] = .exit := by
  induction counts with
  | nil => simp at h
  | cons c counts ih =>
    obtain ⟨n, ns⟩ := c
    cases n with
    | succ n => rfl
    | zero =>
      rcases readCurves_nil (ns := ns) with ⟨-, h1⟩ | ⟨h0, a, h1⟩
      · simp only [readSets, readCurve, takeRows, List.map_nil, unsorted, Bool.false_eq_true, if_false, Res.ok_bind, h1]
        rfl
      · have : readSets counts [] = .exit := by
          refine ih ?_
          obtain ⟨c, hc, hp⟩ := h
          rcases List.mem_cons.1 hc with rfl | hc
          · rcases hp with hp | ⟨m, hm, hp⟩
            · simp at hp
            · have := h0 m hm; omega
          · exact ⟨c, hc, hp⟩
        simp only [readSets, readCurve, takeRows, List.map_nil, unsorted, Bool.false_eq_true, if_false, Res.ok_bind, h1, this]
        rfl

/-- **C42.** A file that ends before all the header lines announced by the first line: the last line that could be read is
taken for the missing ones, and since no numbers follow, the program stops (unless no light curve has points). -/
theorem C42_short_header (nums : List Char → List ℝ) (hnums : nums [] = []) (path first : List Char) (heads : List (List Char))
    (counts : List (ℕ × List ℕ)) (m : ℕ) (hfirst : IsHead first m []) (hheads : List.Forall₂ (fun l c => IsHead l c.1 c.2) heads counts)
    (hlen : ∀ l ∈ first :: heads, l.length < 255) (hm : heads.length < m) (hempty : ∀ c ∈ counts, EmptyLast c.2)
    (hpts : counts = [] ∨ ∃ c ∈ counts, 0 < c.1 ∨ ∃ n ∈ c.2, 0 < n) :
    readMain false nums path ((first :: heads).map fun l => l ++ ['\n']).flatten = .exit := by
  obtain ⟨ws, -, h5, -⟩ := head_parts hfirst ['\n'] noDigit_newline (by decide)
  obtain ⟨k, rfl⟩ := Nat.exists_eq_add_of_lt hm
  have hnl : ∀ l ∈ heads, '\n' ∉ l := by
    intro l hl
    obtain ⟨i, hi, rfl⟩ := List.getElem_of_mem hl
    exact head_no_newline (hheads.get hi (by rw [← hheads.length_eq]; exact hi))
  have hl : heads = [] ∧ counts = [] ∨ ∃ l c, heads.getLast? = some l ∧ c ∈ counts ∧ IsHead l c.1 c.2 := by
    rcases List.eq_nil_or_concat heads with rfl | ⟨hs, l, rfl⟩
    · exact .inl ⟨rfl, List.forall₂_nil_left_iff.1 hheads⟩
    · right
      rcases List.eq_nil_or_concat counts with rfl | ⟨cs, c, rfl⟩
      · simpa using hheads.length_eq
      · refine ⟨l, c, by simp, by simp, ?_⟩
        have hle : hs.length = cs.length := by simpa using hheads.length_eq
        have := hheads.get (i := hs.length) (by simp) (by simp [hle])
        simpa [hle] using this
  obtain ⟨cl, hcl, hcl2, hcl3⟩ : ∃ cl : ℕ × List ℕ, IsHead (heads.getLast?.getD first) cl.1 cl.2 ∧ EmptyLast cl.2 ∧
      (counts = [] → 0 < cl.1) := by
    rcases hl with ⟨rfl, rfl⟩ | ⟨l, c, h1, h2, h3⟩
    · exact ⟨(_, []), hfirst, by intro i j _ h; simp at h, fun _ => by simp⟩
    · exact ⟨c, by rwa [h1], hempty c h2, fun h => by simp [h] at h2⟩
  have hF : List.Forall₂ (fun l c => IsHead l c.1 c.2) (heads ++ List.replicate (k + 1) (heads.getLast?.getD first))
      (counts ++ List.replicate (k + 1) cl) := by
    refine List.rel_append hheads ?_
    generalize k + 1 = n
    induction n with
    | zero => exact .nil
    | succ n ih => exact .cons hcl ih
  obtain ⟨np, h6⟩ := headSets_heads (vm := false) hF (by simp) none
  have hE : ∀ c ∈ counts ++ List.replicate (k + 1) cl, EmptyLast c.2 := by
    intro c hc
    rcases List.mem_append.1 hc with hc | hc
    · exact hempty c hc
    · rw [(List.mem_replicate.1 hc).2]; exact hcl2
  have e : ((first :: heads).map fun l => l ++ ['\n']).flatten = first ++ ('\n' :: (heads.map fun l => l ++ ['\n']).flatten) := by
    simp
  unfold readMain
  rw [e, fgetsBuf_line (head_no_newline hfirst) (hlen first (by simp))]
  simp only [h5, Option.getD_some, Int.toNat_natCast]
  rw [Nat.add_assoc, takeLines_short hnl fun l hl => hlen l (by simp [hl])]
  simp only [h6, Res.ok_bind, headCounts_heads hF np hE, hnums]
  refine readSets_nil ?_
  rcases hpts with rfl | ⟨c, hc, hp⟩
  · exact ⟨(cl.1, cl.2.filter (0 < ·)), by simp, .inl (hcl3 rfl)⟩
  · refine ⟨(c.1, c.2.filter (0 < ·)), List.mem_map.2 ⟨c, by simp [hc], rfl⟩, ?_⟩
    rcases hp with hp | ⟨n, hn, hp⟩
    · exact .inl hp
    · exact .inr ⟨n, by simp [hn, hp], hp⟩

/-! ## Concrete cases -/

/-- A number without blanks is a field. -/
private theorem field0 (n : ℕ) : IsField (Nat.toDigits 10 n) n := ⟨[], [], by simp, by simp, by simp⟩

private theorem field1 (n : ℕ) : IsField (' ' :: Nat.toDigits 10 n) n :=
  ⟨[' '], [], by simp, by simp, by simp⟩

private def exFile (h : String) : List Char := ("# 1\n" ++ h ++ "\nx").toList

private theorem exData (h : String) (n : ℕ) (ns : List ℕ) (hh : IsHead h.toList n ns) (hl : h.toList.length < 255) :
    IsData (exFile h) [(n, ns)] ['x'] := by
  refine ⟨⟨"# 1".toList, [h.toList], ?_, ⟨" 1".toList, [], rfl, field1 1, .nil⟩, .cons hh .nil, ?_⟩⟩
  · simp [exFile]
  · intro l hl'
    simp only [List.mem_cons, List.not_mem_nil, or_false] at hl'
    rcases hl' with rfl | rfl
    · decide
    · exact hl

/-- One continuum point, one line with one point, then an empty line. -/
example : readMain false (fun _ => [1, 2, 3, 4, 5, 6]) [] (exFile "# 1:1:0")
    = .ok [⟨[(1, 2, 3)], [[(4, 5, 6)]]⟩] := by
  have h : IsHead "# 1:1:0".toList 1 [1, 0] :=
    ⟨" 1".toList, ["1".toList, "0".toList], by decide, field1 1, .cons (field0 1) (.cons (field0 0) .nil)⟩
  refine (C42_read_partial _ _ _ _ _ _ (exData _ _ _ h (by decide)) (by simp) ?_ _).2 ⟨by simp, ⟨[], ?_⟩, ?_⟩
  · intro c hc
    simp only [List.mem_singleton] at hc
    subst hc
    intro i j hij hi n hn
    match j, hij with
    | 1, _ => simpa using hn.symm
    | j + 2, _ => simp at hn
  · simp [setNums, rowNums]
  · simp [Ascending]

/-- The same with the empty line first. -/
example : readMain false (fun _ => [1, 2, 3, 4, 5, 6]) [] (exFile "# 1:0:1") = .ub := by
  have h : IsHead "# 1:0:1".toList 1 [0, 1] :=
    ⟨" 1".toList, ["0".toList, "1".toList], by decide, field1 1, .cons (field0 0) (.cons (field0 1) .nil)⟩
  exact C42_empty_line _ _ _ _ _ _ (exData _ _ _ h (by decide)) (by simp) (1, [0, 1]) (by simp) 0 1 1
    (by norm_num) rfl rfl (by norm_num)

example : readNmap (fun _ => [1, 2, 3, 4, 5, 6]) [] (exFile "# 1:0:1")
    = .ok [⟨[(1, 2, 3)], []⟩, ⟨[(4, 5, 6)], []⟩] := by
  have h : IsHead "# 1:0:1".toList 1 [0, 1] :=
    ⟨" 1".toList, ["0".toList, "1".toList], by decide, field1 1, .cons (field0 0) (.cons (field0 1) .nil)⟩
  exact (C42_nmap_partial _ _ _ _ _ (exData _ _ _ h (by decide)) (by simp) _).2
    ⟨by simp, ⟨[], by simp [rowNums]⟩, by simp [Ascending]⟩

example : readNmap (fun _ => [1, 2, 3]) [] (exFile "# 1") = .ub :=
  C42_nmap_single _ _ _ _ _ (exData "# 1" 1 [] ⟨" 1".toList, [], by decide, field1 1, .nil⟩ (by decide)) (1, [])
    (by simp) rfl

/-- A header line with -3 continuum points. -/
example : readMain false (fun _ => [1, 2, 3]) [] (exFile "# -3:1") = .ub :=
  C42_negative false _ [] "# 1".toList [' '] ":1".toList ['x'] 1 3 ⟨" 1".toList, [], rfl, field1 1, .nil⟩ (by norm_num)
    (by norm_num) (by decide) (by simp) (by intro c s h; cases h; decide) (by decide) (by decide)

/-- Two data sets announced, one header line. -/
example : readMain false (fun s => s.map fun _ => 1) [] "# 2\n# 3:4\n".toList = .exit :=
  C42_short_header _ rfl _ "# 2".toList ["# 3:4".toList] [(3, [4])] 2 ⟨" 2".toList, [], rfl, field1 2, .nil⟩
    (.cons ⟨" 3".toList, ["4".toList], by decide, field1 3, .cons (field0 4) .nil⟩ .nil) (by decide) (by decide)
    (by
      intro c hc
      simp only [List.mem_singleton] at hc
      subst hc
      intro i j hij hi n hn
      match j, hij with
      | j + 1, _ => simp at hn)
    (.inr ⟨(3, [4]), by simp, .inl (by norm_num)⟩)

end Mica
