import Verif.Proof.SciText
import Verif.Props.Data
import Verif.Props.Spans

/-!
# C102: output files have the format of the input data
-/

namespace Mica

/-! ### Statement -/

/-- A row read back: relative accuracy of the time with `p` digits behind the point, of the others with six. -/
def RowClose (p : ℕ) (r r' : Row) : Prop :=
  |r'.1 - r.1| ≤ 1 / 2 * (10 : ℝ) ^ (-(p : ℤ)) * |r.1| ∧ |r'.2.1 - r.2.1| ≤ 1 / 2 * (10 : ℝ) ^ (-6 : ℤ) * |r.2.1| ∧
    |r'.2.2 - r.2.2| ≤ 1 / 2 * (10 : ℝ) ^ (-6 : ℤ) * |r.2.2|

/-- A data set read back: the same light curves with the same numbers of points. -/
def SetClose (p : ℕ) (s s' : FSet) : Prop :=
  List.Forall₂ (RowClose p) s.con s'.con ∧ List.Forall₂ (List.Forall₂ (RowClose p)) s.lines s'.lines

/-! ### Numbers of the body -/

/-- The text `b` delivers the numbers `l`. -/
def Yields (b : List Char) (l : List ℝ) : Prop :=
  l.length ≤ b.length ∧ ∀ a : List Char, (∀ c ∈ a, isSpaceC c = true) → ∃ a' : List Char, (∀ c ∈ a', isSpaceC c = true) ∧
    ∀ (rest : List Char) (k : ℕ), lfNums (l.length + k) (a ++ (b ++ rest)) = l ++ lfNums k (a' ++ rest)

theorem Yields.append {b b' : List Char} {l l' : List ℝ} (h : Yields b l) (h' : Yields b' l') : Yields (b ++ b') (l ++ l') := by
  refine ⟨by have := h.1; have := h'.1; simp; omega, fun a ha => ?_⟩
  obtain ⟨a1, h1, h2⟩ := h.2 a ha
  obtain ⟨a2, h3, h4⟩ := h'.2 a1 h1
  refine ⟨a2, h3, fun rest k => ?_⟩
  rw [List.length_append, Nat.add_assoc, List.append_assoc, h2, h4, List.append_assoc]

theorem Yields.spaces {b : List Char} (h : ∀ c ∈ b, isSpaceC c = true) : Yields b [] := by
  refine ⟨by simp, fun a ha => ⟨a ++ b, ?_, fun rest k => by simp⟩⟩
  intro c hc
  rcases List.mem_append.1 hc with hc | hc
  · exact ha c hc
  · exact h c hc

theorem space_noDigit {c : Char} (h : isSpaceC c = true) (s : List Char) : NoDigit (c :: s) := by
  intro d t hd
  rw [← (List.cons.inj hd).1]
  by_contra hn
  have := isDigit_not_space (Bool.of_not_eq_false hn)
  rw [this] at h; exact absurd h (by decide)

theorem Yields.number (p : ℕ) (x : ℝ) {c : Char} (hc : isSpaceC c = true) : Yields (sciText p x ++ [c]) [sciVal p x] := by
  refine ⟨by simp, fun a ha => ⟨[c], by simpa using hc, fun rest k => ?_⟩⟩
  have := scanLf_text p x (r := c :: rest) ha (space_noDigit hc rest)
  rw [List.length_singleton, Nat.add_comm, lfNums]
  rw [show a ++ (sciText p x ++ [c] ++ rest) = a ++ (sciText p x ++ c :: rest) by simp, this]
  rfl

theorem Yields.flatten {α : Type} {f : α → List Char} {g : α → List ℝ} {l : List α} (h : ∀ x ∈ l, Yields (f x) (g x)) :
    Yields (l.map f).flatten (l.map g).flatten := by
  induction l with
  | nil => exact .spaces (by simp)
  | cons x l ih => exact (h x (by simp)).append (ih fun y hy => h y (by simp [hy]))

theorem scanLf_spaces {a : List Char} (h : ∀ c ∈ a, isSpaceC c = true) : scanLf a = none := by
  have : skipSpace a = [] := by
    have := skipSpace_append (s := []) h
    simpa [skipSpace] using this
  unfold scanLf
  simp [this, takeSign, takeFrac]

theorem Yields.nums {b : List Char} {l : List ℝ} (h : Yields b l) : fileNums b = l := by
  obtain ⟨a, h1, h2⟩ := h.2 [] (by simp)
  have := h2 [] (b.length - l.length)
  rw [Nat.add_sub_cancel' h.1] at this
  simp only [List.nil_append, List.append_nil] at this
  rw [fileNums, this]
  cases b.length - l.length with
  | zero => simp [lfNums]
  | succ k => simp [lfNums, scanLf_spaces h1]

/-- The row that is read back. -/
noncomputable def roundRow (p : ℕ) (r : Row) : Row := (sciVal p r.1, sciVal 6 r.2.1, sciVal 6 r.2.2)

noncomputable def roundSet (p : ℕ) (s : FSet) : FSet := ⟨s.con.map (roundRow p), s.lines.map fun l => l.map (roundRow p)⟩

theorem yields_row (p : ℕ) (r : Row) :
    Yields (rowText p r) [(roundRow p r).1, (roundRow p r).2.1, (roundRow p r).2.2] := by
  have := ((Yields.number p r.1 (c := ' ') (by decide)).append (.number 6 r.2.1 (c := ' ') (by decide))).append
    (.number 6 r.2.2 (c := '\n') (by decide))
  simpa [rowText, roundRow] using this

theorem yields_curve (p : ℕ) (c : List Row) : Yields (curveText p c) (rowNums (c.map (roundRow p))) := by
  have := (Yields.flatten (l := c) fun r _ => yields_row p r).append (.spaces (b := ['\n']) (by decide))
  simpa [curveText, rowNums, List.map_map, Function.comp_def] using this

theorem yields_set (p : ℕ) (s : FSet) :
    Yields (setText p s) (rowNums (roundSet p s).con ++ ((roundSet p s).lines.map rowNums).flatten) := by
  have := (yields_curve p s.con).append (Yields.flatten (l := s.lines) fun c _ => yields_curve p c)
  simpa [setText, roundSet, List.map_map, Function.comp_def] using this

theorem nums_sets (p : ℕ) (sets : List FSet) :
    fileNums (sets.map (setText p)).flatten = setNums (sets.map (roundSet p)) := by
  have := (Yields.flatten (l := sets) fun s _ => yields_set p s).nums
  rw [this, setNums, List.map_map]
  rfl

theorem roundRow_close (p : ℕ) (r : Row) : RowClose p r (roundRow p r) := by
  exact ⟨sciVal_near p _, by simpa [roundRow] using sciVal_near 6 r.2.1, by simpa [roundRow] using sciVal_near 6 r.2.2⟩

theorem forall₂_map {α β : Type} {R : α → β → Prop} {f : α → β} (h : ∀ x, R x (f x)) (l : List α) : List.Forall₂ R l (l.map f) := by
  induction l with
  | nil => exact .nil
  | cons x l ih => exact .cons (h x) ih

theorem roundSet_close (p : ℕ) (s : FSet) : SetClose p s (roundSet p s) :=
  ⟨forall₂_map (roundRow_close p) _, forall₂_map (fun l => forall₂_map (roundRow_close p) l) _⟩

theorem round_ascending {p : ℕ} {l : List Row} (h : Ascending l) : Ascending (l.map (roundRow p)) := by
  unfold Ascending at h ⊢
  rw [List.pairwise_map]
  exact h.imp fun hab => sciVal_mono hab

/-! ### Headers -/

/-- Numbers of points of a data set. -/
def setCount (s : FSet) : ℕ × List ℕ := (s.con.length, s.lines.map List.length)

theorem fileHead_head (sets : List FSet) : IsHead (fileHead sets) sets.length [] :=
  ⟨' ' :: Nat.toDigits 10 sets.length, [], by simp [fileHead], ⟨[' '], [], by simp, by simp, by simp⟩, .nil⟩

theorem setHead_head (s : FSet) : IsHead (setHead s) (setCount s).1 (setCount s).2 := by
  refine ⟨' ' :: Nat.toDigits 10 s.con.length, s.lines.map fun l => Nat.toDigits 10 l.length, ?_, ⟨[' '], [], by simp [setCount], by simp, by simp⟩, ?_⟩
  · simp [setHead, List.map_map, Function.comp_def]
  · simp only [setCount]
    induction s.lines with
    | nil => exact .nil
    | cons l ls ih => exact .cons ⟨[], [], by simp, by simp, by simp⟩ ih

/-- Lines that the reader of headers gets in one piece. -/
def HeadsFit (sets : List FSet) : Prop := (fileHead sets).length < 255 ∧ ∀ s ∈ sets, (setHead s).length < 255

theorem pallText_data (p : ℕ) {sets : List FSet} (h : HeadsFit sets) :
    IsData (pallText p sets) (sets.map setCount) (sets.map (setText p)).flatten := by
  refine ⟨⟨fileHead sets, sets.map setHead, ?_, ?_, ?_, ?_⟩⟩
  · simp [pallText, List.map_map, Function.comp_def]
  · rw [List.length_map]; exact fileHead_head sets
  · clear h
    induction sets with
    | nil => exact .nil
    | cons s sets ih => exact .cons (setHead_head s) ih
  · intro l hl
    rcases List.mem_cons.1 hl with rfl | hl
    · exact h.1
    · obtain ⟨s, hs, rfl⟩ := List.mem_map.1 hl
      exact h.2 s hs

theorem emptyLast_pos {ns : List ℕ} (h : ∀ n ∈ ns, n ≠ 0) : EmptyLast ns := by
  intro i j _ hi n _
  exact absurd rfl (h 0 (List.mem_of_getElem? hi))

/-! ### Theorems -/

/-- **C102.** `pall.txt` and `pcon.txt` are data files in the documented format, and reading them as data gives back all
light curves with the accuracy of the printed digits (for light curves with points and ascending times, and header lines
that fit the buffer). -/
theorem C102_pall (p : ℕ) (sets : List FSet) (path : List Char) (hfit : HeadsFit sets)
    (hne : ∀ s ∈ sets, ∀ l ∈ s.lines, l ≠ []) (hasc : ∀ s ∈ sets, Ascending s.con ∧ ∀ l ∈ s.lines, Ascending l) :
    IsData (pallText p sets) (sets.map setCount) (sets.map (setText p)).flatten ∧
    ∃ sets', readMain false fileNums path (pallText p sets) = .ok sets' ∧ List.Forall₂ (SetClose p) sets sets' := by
  have hd := pallText_data p hfit
  refine ⟨hd, sets.map (roundSet p), ?_, forall₂_map (roundSet_close p) sets⟩
  rw [C42_read_partial false fileNums path _ _ _ hd (by simp)]
  · refine ⟨?_, ⟨[], by rw [nums_sets]; simp⟩, ?_⟩
    · simp only [List.map_map]
      refine List.map_congr_left fun s hs => ?_
      have : (s.lines.map List.length).filter (0 < ·) = s.lines.map List.length := by
        refine List.filter_eq_self.2 fun n hn => ?_
        obtain ⟨l, hl, rfl⟩ := List.mem_map.1 hn
        have := List.length_pos_iff.2 (hne s hs l hl)
        simpa using this
      simp [Function.comp, roundSet, setCount, this]
    · intro s' hs'
      obtain ⟨s, hs, rfl⟩ := List.mem_map.1 hs'
      refine ⟨round_ascending (hasc s hs).1, fun l' hl' => ?_⟩
      obtain ⟨l, hl, rfl⟩ := List.mem_map.1 hl'
      exact round_ascending ((hasc s hs).2 l hl)
  · intro c hc
    obtain ⟨s, hs, rfl⟩ := List.mem_map.1 hc
    refine emptyLast_pos fun n hn => ?_
    obtain ⟨l, hl, rfl⟩ := List.mem_map.1 hn
    have := List.length_pos_iff.2 (hne s hs l hl)
    omega

/-- **C102** (partial: one data set, see `C102_comp_fails`). The file of a component can be read as a data file. -/
theorem C102_comp_partial (p : ℕ) (s : FSet) (path : List Char) (hfit : HeadsFit [s])
    (hne : ∀ l ∈ s.lines, l ≠ []) (hasc : Ascending s.con ∧ ∀ l ∈ s.lines, Ascending l) :
    ∃ s', readMain false fileNums path (compText p [s]) = .ok [s'] ∧ SetClose p s s' := by
  have e : compText p [s] = pallText p [s] := by simp [compText, pallText]
  obtain ⟨-, sets', h1, h2⟩ := C102_pall p [s] path hfit (by simpa using hne) (by simpa using hasc)
  cases h2 with
  | cons ha hr =>
    cases hr
    exact ⟨_, by rw [e, h1], ha⟩

/-! ### Where it fails -/

theorem comp_text {p : ℕ} {s0 : FSet} {more : List FSet} {r : Row} {rs : List Row} (hcon : s0.con = r :: rs) :
    ∃ tail, compText p (s0 :: more) = fileHead (s0 :: more) ++ '\n' :: (setHead s0 ++ '\n' :: (rowText p r ++ tail)) := by
  refine ⟨(rs.map (rowText p)).flatten ++ ['\n'] ++ (s0.lines.map (curveText p)).flatten ++
    (more.map fun s => setHead s ++ ('\n' :: setText p s)).flatten, ?_⟩
  simp [compText, setText, curveText, hcon]

/-- First characters of a printed number. -/
theorem sciText_start {p : ℕ} (hp : p ≠ 0) (x : ℝ) :
    ∃ d s, Char.isDigit d = true ∧ sciText p x = (if x < 0 then ['-'] else []) ++ d :: '.' :: s := by
  obtain ⟨h1, h2, -⟩ := lastDigits_spec 1 ((sciParts p |x|).1 / 10 ^ p)
  obtain ⟨d, hd⟩ := List.length_eq_one_iff.1 h1
  refine ⟨d, lastDigits p ((sciParts p |x|).1 % 10 ^ p) ++ 'e' :: sciExpo (sciParts p |x|).2, h2 d (by rw [hd]; simp), ?_⟩
  rw [sciText, hd, if_neg hp]
  rfl

theorem scanInt_point (s : List Char) : scanInt ('.' :: s) = none := by
  have h1 : skipSpace ('.' :: s) = '.' :: s := by simp [skipSpace, isSpaceC]
  have h2 : scanNat ('.' :: s) = none := by simp [scanNat]
  unfold scanInt
  rw [h1]
  split
  · rename_i h; exact absurd (List.cons.inj h).1 (by decide)
  · rename_i h; exact absurd (List.cons.inj h).1 (by decide)
  · rename_i h; rw [h2]; rfl

theorem headSets_second {s0 : FSet} {b : List Char} {ls : List (List Char)} (hb : headSet false b = fun _ => .ub) :
    headSets false ((setHead s0 ++ ['\n']) :: b :: ls) none = .ub := by
  obtain ⟨np, h⟩ := headSet_head (vm := false) (setHead_head s0) (by simp) none
  simp only [headSets, h, Res.ok_bind, hb]
  rfl

/-- What is read from the file of a component with several data sets, up to the second header. -/
theorem comp_read {p : ℕ} {s0 s1 : FSet} {rest : List FSet} {r : Row} {rs : List Row} (hcon : s0.con = r :: rs)
    (hfit : HeadsFit (s0 :: s1 :: rest)) (path : List Char) :
    ∃ tail ls body, readMain false fileNums path (compText p (s0 :: s1 :: rest)) =
      (headSets false ((setHead s0 ++ ['\n']) :: (fgetsBuf (setHead s0 ++ ['\n']) (rowText p r ++ tail)).1 :: ls) none >>= fun h =>
        headCounts h.1 ((setHead s0 ++ ['\n']) :: (fgetsBuf (setHead s0 ++ ['\n']) (rowText p r ++ tail)).1 :: ls) h.2 >>= fun hs =>
          readSets hs (fileNums body)) := by
  obtain ⟨tail, ht⟩ := comp_text (p := p) (more := s1 :: rest) hcon
  refine ⟨tail, (takeLines rest.length (fgetsBuf (setHead s0 ++ ['\n']) (rowText p r ++ tail)).1
      (fgetsBuf (setHead s0 ++ ['\n']) (rowText p r ++ tail)).2).1,
    (takeLines rest.length (fgetsBuf (setHead s0 ++ ['\n']) (rowText p r ++ tail)).1
      (fgetsBuf (setHead s0 ++ ['\n']) (rowText p r ++ tail)).2).2, ?_⟩
  obtain ⟨ws, -, h5, -⟩ := head_parts (fileHead_head (s0 :: s1 :: rest)) ['\n'] noDigit_newline (by decide)
  unfold readMain
  rw [ht, fgetsBuf_line (head_no_newline (fileHead_head _)) hfit.1]
  simp only [h5, Option.getD_some, Int.toNat_natCast]
  rw [List.length_cons, List.length_cons, takeLines,
    fgetsBuf_line (head_no_newline (setHead_head s0)) (hfit.2 s0 (by simp)), takeLines]

/-- **C102, where it fails.** With two or more data sets the file of a component is not a data file: the header of the
second data set is not where it is looked for.  If the first time is not negative, the reader goes on without a number of
points. -/
theorem C102_comp_ub (p : ℕ) (hp : p ≠ 0) (s0 s1 : FSet) (rest : List FSet) (r : Row) (rs : List Row) (hcon : s0.con = r :: rs)
    (hfit : HeadsFit (s0 :: s1 :: rest)) (path : List Char) (ht : 0 ≤ r.1) :
    readMain false fileNums path (compText p (s0 :: s1 :: rest)) = .ub := by
  obtain ⟨tail, ls, body, h⟩ := comp_read (p := p) hcon hfit path
  obtain ⟨d, s, hd, hs⟩ := sciText_start hp r.1
  rw [if_neg (not_lt.2 ht), List.nil_append] at hs
  rw [h, headSets_second]
  · rfl
  · have e : (fgetsBuf (setHead s0 ++ ['\n']) (rowText p r ++ tail)).1.drop 1 = '.' ::
        (fgetsC 253 (s ++ (' ' :: (sciText 6 r.2.1 ++ (' ' :: (sciText 6 r.2.2 ++ ['\n'])))) ++ tail)).1 := by
      have hn : d ≠ '\n' := by rintro rfl; exact absurd hd (by decide)
      rw [rowText, hs]
      simp only [List.cons_append, fgetsBuf, List.append_assoc]
      rw [fgetsC, if_neg hn, List.drop_succ_cons, List.drop_zero, fgetsC, if_neg (by decide)]
    funext np
    unfold headSet
    rw [e, scanInt_point]

theorem digit_ne {c : Char} (h : c.isDigit = true) : c ≠ '\n' ∧ c ≠ ':' := by
  constructor <;> (rintro rfl; exact absurd h (by decide))

/-- Printed numbers have neither colons nor line ends. -/
theorem sciText_chars (p : ℕ) (x : ℝ) : ∀ c ∈ sciText p x, c ≠ '\n' ∧ c ≠ ':' := by
  have h1 := (lastDigits_spec 1 ((sciParts p |x|).1 / 10 ^ p)).2.1
  have h2 := (lastDigits_spec p ((sciParts p |x|).1 % 10 ^ p)).2.1
  obtain ⟨d, -, h3, -, h4⟩ := sciExpo_spec (sciParts p |x|).2
  intro c hc
  rw [sciText, h4] at hc
  simp only [List.mem_append, List.mem_cons] at hc
  rcases hc with hc | hc | hc | hc | hc | hc
  · split at hc
    · rw [List.mem_singleton.1 hc]; decide
    · simp at hc
  · exact digit_ne (h1 c hc)
  · split at hc
    · simp at hc
    · rcases List.mem_cons.1 hc with rfl | hc
      · decide
      · exact digit_ne (h2 c hc)
  · rw [hc]; decide
  · rw [hc]; split <;> decide
  · exact digit_ne (h3 c hc)

theorem rowText_line (p : ℕ) (r : Row) : ∃ row, rowText p r = row ++ ['\n'] ∧ '\n' ∉ row := by
  refine ⟨sciText p r.1 ++ (' ' :: (sciText 6 r.2.1 ++ (' ' :: sciText 6 r.2.2))), by simp [rowText], fun hc => ?_⟩
  simp only [List.mem_append, List.mem_cons] at hc
  rcases hc with hc | hc | hc | hc | hc
  · exact (sciText_chars _ _ _ hc).1 rfl
  · exact absurd hc (by decide)
  · exact (sciText_chars _ _ _ hc).1 rfl
  · exact absurd hc (by decide)
  · exact (sciText_chars _ _ _ hc).1 rfl

/-- Header lines taken from the rows of a light curve: either there are enough rows, or the empty line behind them is
taken, too. -/
theorem takeLines_rows (p m : ℕ) (buf : List Char) (l : List Row) (T : List Char) (hl : ∀ r ∈ l, (rowText p r).length ≤ 255) :
    m ≤ l.length ∧ (takeLines m buf ((l.map (rowText p)).flatten ++ '\n' :: T)).2 =
        ((l.drop m).map (rowText p)).flatten ++ '\n' :: T ∨
      ['\n'] ∈ (takeLines m buf ((l.map (rowText p)).flatten ++ '\n' :: T)).1 := by
  induction m generalizing buf l with
  | zero => exact .inl ⟨by omega, rfl⟩
  | succ m ih =>
    cases l with
    | nil =>
      right
      rw [takeLines]
      refine List.mem_cons.2 (.inl ?_)
      have := fgetsBuf_line (buf := buf) (l := []) (rest := T) (by simp) (by simp)
      simp only [List.map_nil, List.flatten_nil, List.nil_append] at this ⊢
      rw [this]
    | cons r l =>
      obtain ⟨row, h1, h2⟩ := rowText_line p r
      have e : ((r :: l).map (rowText p)).flatten ++ '\n' :: T = row ++ '\n' :: ((l.map (rowText p)).flatten ++ '\n' :: T) := by
        simp [h1]
      have hlen : row.length < 255 := by
        have := hl r (by simp)
        rw [h1] at this; simp at this; omega
      rw [e, takeLines, fgetsBuf_line h2 hlen]
      rcases ih (row ++ ['\n']) l (fun x hx => hl x (by simp [hx])) with ⟨h3, h4⟩ | h3
      · left
        refine ⟨by simp; omega, ?_⟩
        simp only
        rw [h4]
        rfl
      · exact .inr (List.mem_cons.2 (.inr h3))

theorem headSets_mem {vm : Bool} {ls : List (List Char)} {np : Option ℤ} {h : List (ℕ × ℕ) × Option ℤ}
    (hh : headSets vm ls np = .ok h) : ∀ b ∈ ls, scanInt (b.drop 1) ≠ none := by
  induction ls generalizing np h with
  | nil => simp
  | cons b ls ih =>
    simp only [headSets] at hh
    rw [Res.bind_eq_ok] at hh
    obtain ⟨q, h1, h2⟩ := hh
    rw [Res.bind_eq_ok] at h2
    obtain ⟨q', h3, -⟩ := h2
    intro x hx
    rcases List.mem_cons.1 hx with rfl | hx
    · intro h0
      unfold headSet at h1
      rw [h0] at h1
      exact absurd h1 (by simp)
    · exact ih h3 x hx

theorem Yields.stop {b rest : List Char} {l : List ℝ} (h : Yields b l) : fileNums (b ++ '#' :: rest) = l := by
  obtain ⟨a, h1, h2⟩ := h.2 [] (by simp)
  have := h2 ('#' :: rest) ((b ++ '#' :: rest).length - l.length)
  rw [Nat.add_sub_cancel' (by have := h.1; simp; omega)] at this
  simp only [List.nil_append] at this
  rw [fileNums, this]
  have hs : scanLf (a ++ '#' :: rest) = none := by
    unfold scanLf
    rw [skipSpace_append h1]
    simp [skipSpace, isSpaceC, takeSign, takeFrac]
  cases (b ++ '#' :: rest).length - l.length with
  | zero => simp [lfNums]
  | succ k => simp [lfNums, hs]

theorem rowNums_length (l : List Row) : (rowNums l).length = 3 * l.length := by
  induction l with
  | nil => rfl
  | cons r l ih =>
    have : rowNums (r :: l) = [r.1, r.2.1, r.2.2] ++ rowNums l := by simp [rowNums]
    rw [this, List.length_append, ih]; simp; ring

theorem linesNums_length (ls : List (List Row)) : ((ls.map rowNums).flatten).length = 3 * (ls.map List.length).sum := by
  induction ls with
  | nil => rfl
  | cons l ls ih => simp [ih, rowNums_length]; ring

/-- **C102, where it fails.** Whatever the times are, with two or more data sets the file of a component is never read as a
data file. -/
theorem C102_comp_fails (p : ℕ) (s0 s1 : FSet) (rest : List FSet) (hcon : s0.con ≠ []) (hne : ∀ l ∈ s0.lines, l ≠ [])
    (hfit : HeadsFit (s0 :: s1 :: rest)) (hrow : ∀ r ∈ s0.con, (rowText p r).length ≤ 255) (path : List Char) (sets : List FSet) :
    readMain false fileNums path (compText p (s0 :: s1 :: rest)) ≠ .ok sets := by
  intro h
  set T := (s0.lines.map (curveText p)).flatten ++ '#' ::
    (((setHead s1).drop 1) ++ '\n' :: setText p s1 ++ (rest.map fun s => setHead s ++ ('\n' :: setText p s)).flatten) with hT
  have ht : compText p (s0 :: s1 :: rest) = fileHead (s0 :: s1 :: rest) ++ '\n' :: (setHead s0 ++ '\n' ::
      ((s0.con.map (rowText p)).flatten ++ '\n' :: T)) := by
    simp [compText, setText, curveText, hT, setHead]
  obtain ⟨ws, -, h5, -⟩ := head_parts (fileHead_head (s0 :: s1 :: rest)) ['\n'] noDigit_newline (by decide)
  unfold readMain at h
  rw [ht, fgetsBuf_line (head_no_newline (fileHead_head _)) hfit.1] at h
  simp only [h5, Option.getD_some, Int.toNat_natCast] at h
  rw [List.length_cons, takeLines, fgetsBuf_line (head_no_newline (setHead_head s0)) (hfit.2 s0 (by simp))] at h
  set tl := takeLines (s1 :: rest).length (setHead s0 ++ ['\n']) ((s0.con.map (rowText p)).flatten ++ '\n' :: T) with htl
  simp only at h
  rw [Res.bind_eq_ok] at h
  obtain ⟨hh, h1, h2⟩ := h
  rw [Res.bind_eq_ok] at h2
  obtain ⟨hs, h3, h4⟩ := h2
  rcases takeLines_rows p (s1 :: rest).length (setHead s0 ++ ['\n']) s0.con T hrow with ⟨hm, hbody⟩ | hbad
  swap
  · have := headSets_mem h1 ['\n'] (List.mem_cons.2 (.inr hbad))
    exact this (by decide)
  · rw [← htl] at hbody
    obtain ⟨np, h0⟩ := headSet_head (vm := false) (setHead_head s0) (by simp) none
    simp only [headSets, h0, Res.ok_bind] at h1
    rw [Res.bind_eq_ok] at h1
    obtain ⟨q, -, h6⟩ := h1
    have e6 := Res.ok.inj h6
    subst e6
    simp only [headCounts] at h3
    rw [Res.bind_eq_ok] at h3
    obtain ⟨l0, h7, h8⟩ := h3
    rw [Res.bind_eq_ok] at h8
    obtain ⟨l1, -, h9⟩ := h8
    have e9 := Res.ok.inj h9
    subst e9
    have hfil : (s0.lines.map List.length).filter (0 < ·) = s0.lines.map List.length := by
      refine List.filter_eq_self.2 fun n hn => ?_
      obtain ⟨l, hl, rfl⟩ := List.mem_map.1 hn
      have := List.length_pos_iff.2 (hne l hl)
      simpa using this
    have hl0 : l0.1 = s0.lines.map List.length := by
      have := headCounts_heads (heads := [setHead s0]) (counts := [setCount s0]) (.cons (setHead_head s0) .nil) q.2 (by
        intro c hc
        rw [List.mem_singleton.1 hc]
        refine emptyLast_pos fun n hn => ?_
        obtain ⟨l, hl, rfl⟩ := List.mem_map.1 hn
        have := List.length_pos_iff.2 (hne l hl)
        omega)
      simp only [List.map_cons, List.map_nil, headCounts, h7, Res.ok_bind, Res.ok.injEq, List.cons.injEq, Prod.mk.injEq,
        and_true] at this
      rw [this.2]; exact hfil
    rw [readSets_iff] at h4
    obtain ⟨h10, ⟨rr, h11⟩, -⟩ := h4
    cases sets with
    | nil => simp at h10
    | cons t ts =>
      simp only [List.map_cons, List.cons.injEq, Prod.mk.injEq] at h10
      have hy : Yields (((s0.con.drop (s1 :: rest).length).map (rowText p)).flatten ++ ['\n'] ++
          (s0.lines.map (curveText p)).flatten) _ :=
        (yields_curve p (s0.con.drop (s1 :: rest).length)).append (Yields.flatten (l := s0.lines) fun c _ => yields_curve p c)
      have hn := hy.stop (rest := ((setHead s1).drop 1) ++ '\n' :: setText p s1 ++
        (rest.map fun s => setHead s ++ ('\n' :: setText p s)).flatten)
      have e : tl.2 = ((s0.con.drop (s1 :: rest).length).map (rowText p)).flatten ++ ['\n'] ++
          (s0.lines.map (curveText p)).flatten ++ '#' :: (((setHead s1).drop 1) ++ '\n' :: setText p s1 ++
        (rest.map fun s => setHead s ++ ('\n' :: setText p s)).flatten) := by
        rw [hbody, hT]; simp
      rw [e, hn] at h11
      have hlen := congrArg List.length h11
      have e1 : ((s0.lines.map fun c => rowNums (c.map (roundRow p))).flatten).length = 3 * (s0.lines.map List.length).sum := by
        have := linesNums_length (s0.lines.map fun c => c.map (roundRow p))
        simpa [List.map_map, Function.comp_def] using this
      have e2 : (setNums (t :: ts)).length = 3 * t.con.length + 3 * (t.lines.map List.length).sum + (setNums ts).length := by
        have : setNums (t :: ts) = rowNums t.con ++ (t.lines.map rowNums).flatten ++ setNums ts := by simp [setNums]
        rw [this, List.length_append, List.length_append, rowNums_length, linesNums_length]
      rw [List.length_append, List.length_append, e1, e2, rowNums_length, List.length_map, List.length_drop, h10.1.1, h10.1.2, hl0]
        at hlen
      have hpos := List.length_pos_iff.2 hcon
      simp only [setCount, List.length_cons] at hlen hm
      omega

/-- **C102, where it fails.** In the mode `vmap` the file `pall.txt`, which has a virtual continuum, is refused as data. -/
theorem C102_vmap (p : ℕ) (s : FSet) (sets : List FSet) (path : List Char) (hfit : HeadsFit (s :: sets))
    (hcon : s.con ≠ []) (hl : s.lines ≠ []) : readMain true fileNums path (pallText p (s :: sets)) = .exit := by
  obtain ⟨first, heads, h1, h2, h3, h4⟩ := data_lines path (pallText_data p hfit)
  obtain ⟨ws, -, h5, -⟩ := head_parts h1 ['\n'] noDigit_newline (by decide)
  unfold readMain
  simp only [h3, h5, Option.getD_some, Int.toNat_natCast, h4]
  cases h2 with
  | @cons l c ls cs hab hr =>
    obtain ⟨ws, h6, h7, h8⟩ := head_parts hab ['\n'] noDigit_newline (by decide)
    obtain ⟨np', h9⟩ := countLines_fields h6 noDigit_newline none 0
    have : headSet true (l ++ ['\n']) none = .exit := by
      unfold headSet
      rw [h7, h8]
      have hn : 0 < s.con.length := List.length_pos_iff.2 hcon
      have hneg : ¬((s.con.length : ℤ) < 0) := by omega
      simp only [setCount, hneg, if_false] at h6 ⊢
      cases hls : s.lines with
      | nil => exact absurd hls hl
      | cons x xs =>
        rw [hls] at h6
        cases h6 with
        | @cons a b l1 l2 _ _ =>
          rw [fieldTails] at h9 ⊢
          simp only [h9]
          simp [hn]
    simp only [List.map_cons, headSets, this]
    rfl

/-- **C102, where it fails.** In the mode `nmap` the file `pcon.txt`, which has no lines, cannot be read as data. -/
theorem C102_nmap (p : ℕ) (sets : List FSet) (path : List Char) (hfit : HeadsFit sets) (s : FSet) (hs : s ∈ sets) (hl : s.lines = []) :
    readNmap fileNums path (pallText p sets) = .ub :=
  C42_nmap_single fileNums path _ _ _ (pallText_data p hfit) (setCount s) (List.mem_map.2 ⟨s, hs, rfl⟩) (by simp [setCount, hl])

/-- **C102.** What is printed is what C72 asks of printed times. -/
theorem C102_printed (p : ℕ) (x : ℝ) : PrintedAs p x (sciVal p x) := by
  unfold PrintedAs
  split
  · rename_i h; rw [h]; simp [sciVal, sciAbs_zero]
  · rename_i h
    have hx := abs_pos.2 h
    have hl : ⌊Real.logb 10 |x|⌋ = Int.log 10 |x| := by
      have := Real.floor_logb_natCast (b := 10) (r := |x|) (abs_nonneg x)
      exact_mod_cast this
    rw [hl]
    have h1 := sciVal_near_abs (p := p) (x := x) (L := Int.log 10 |x|) (by
      have := Int.lt_zpow_succ_log_self (b := 10) (by norm_num) |x|
      push_cast at this
      exact this)
    linarith

/-! ### Concrete cases -/

/-- A continuum and a line with two points each. -/
noncomputable def smallSet (t : ℝ) : FSet := ⟨[(t, 1, 1 / 10), (t + 1, 2, 1 / 10)], [[(t, 3, 1 / 10), (t + 2, 4, 1 / 5)]]⟩

theorem smallSets_fit (t : ℝ) : HeadsFit [smallSet t] ∧ HeadsFit [smallSet t, smallSet t] := by
  have d1 : (Nat.toDigits 10 1).length = 1 := by decide
  have d2 : (Nat.toDigits 10 2).length = 1 := by decide
  have h1 : (setHead (smallSet t)).length < 255 := by
    simp [setHead, smallSet, d2]
  refine ⟨⟨by simp [fileHead, d1], by simpa using h1⟩, ⟨by simp [fileHead, d2], by simpa using h1⟩⟩

example (t : ℝ) : ∃ sets', readMain false fileNums [] (pallText 6 [smallSet t, smallSet t]) = .ok sets' ∧
    List.Forall₂ (SetClose 6) [smallSet t, smallSet t] sets' :=
  (C102_pall 6 _ [] (smallSets_fit t).2 (by simp [smallSet]) (by simp [smallSet, Ascending])).2

example (t : ℝ) : ∃ s', readMain false fileNums [] (compText 6 [smallSet t]) = .ok [s'] ∧ SetClose 6 (smallSet t) s' :=
  C102_comp_partial 6 _ [] (smallSets_fit t).1 (by simp [smallSet]) (by simp [smallSet, Ascending])

example : readMain false fileNums [] (compText 6 [smallSet 5, smallSet 5]) = .ub :=
  C102_comp_ub 6 (by norm_num) _ _ [] _ _ rfl (smallSets_fit 5).2 [] (by norm_num)

theorem sciText_length {p : ℕ} {x : ℝ} (h : x = 0 ∨ (10 : ℝ) ^ (-9 : ℤ) ≤ |x| ∧ |x| < (10 : ℝ) ^ (9 : ℤ)) : (sciText p x).length ≤ p + 7 := by
  have he : (sciParts p |x|).2.natAbs < 10 := by
    rcases h with rfl | ⟨h1, h2⟩
    · simp [sciParts]
    · have hx : 0 < |x| := lt_of_lt_of_le (by positivity) h1
      have h3 : -9 ≤ Int.log 10 |x| := (Int.zpow_le_iff_le_log (b := 10) (by norm_num) hx).1 (by exact_mod_cast h1)
      have h4 : Int.log 10 |x| < 9 := (Int.lt_zpow_iff_log_lt (b := 10) (by norm_num) hx).1 (by exact_mod_cast h2)
      unfold sciParts
      rw [if_neg hx.ne']
      split <;> simp only <;> omega
  have hd : (Nat.toDigits 10 (sciParts p |x|).2.natAbs).length = 1 := by
    generalize (sciParts p |x|).2.natAbs = n at he
    revert n
    decide
  have h1 := (lastDigits_spec 1 ((sciParts p |x|).1 / 10 ^ p)).1
  have h2 := (lastDigits_spec p ((sciParts p |x|).1 % 10 ^ p)).1
  rw [sciText, List.length_append, List.length_append, List.length_append, h1, List.length_cons, sciExpo, List.length_cons,
    List.length_append, hd, if_pos he]
  have h3 : (if x < 0 then ['-'] else []).length ≤ 1 := by split <;> simp
  have h4 : (if p = 0 then [] else '.' :: lastDigits p ((sciParts p |x|).1 % 10 ^ p)).length ≤ p + 1 := by
    split
    · simp
    · simp [h2]
  simp only [List.length_singleton]
  omega

/-- Negative times. -/
example (sets : List FSet) : readMain false fileNums [] (compText 6 [smallSet (-5), smallSet (-5)]) ≠ .ok sets := by
  refine C102_comp_fails 6 _ _ [] (by simp [smallSet]) (by simp [smallSet]) (smallSets_fit (-5)).2 ?_ [] sets
  have key : ∀ x : ℝ, (10 : ℝ) ^ (-9 : ℤ) ≤ |x| ∧ |x| < (10 : ℝ) ^ (9 : ℤ) → (sciText 6 x).length ≤ 13 := fun x hx =>
    sciText_length (.inr hx)
  intro r hr
  have h1 := key (-5) (by norm_num)
  have h2 := key (-4) (by norm_num)
  have h3 := key 1 (by norm_num)
  have h4 := key 2 (by norm_num)
  have h5 := key (1 / 10) (by norm_num)
  simp only [smallSet, List.mem_cons, List.not_mem_nil, or_false] at hr
  rcases hr with rfl | rfl
  · simp only [rowText, List.length_append, List.length_cons, List.length_nil]; omega
  · rw [show (-5 : ℝ) + 1 = -4 by norm_num]
    simp only [rowText, List.length_append, List.length_cons, List.length_nil]; omega

example : readMain true fileNums [] (pallText 6 [smallSet 5]) = .exit :=
  C102_vmap 6 _ [] [] (smallSets_fit 5).1 (by simp [smallSet]) (by simp [smallSet])

end Mica
