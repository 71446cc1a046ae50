import Verif.Spec.Data
import Verif.Proof.Text
import Mathlib.Data.List.TakeWhile
import Mathlib.Tactic.Ring
import Mathlib.Tactic.Linarith

namespace Mica

theorem digitsVal_toDigits (n : ℕ) : digitsVal (Nat.toDigits 10 n) = n := by
  have h := Nat.ofDigitChars_toDigits (b := 10) (n := n) (by norm_num) (by norm_num)
  unfold Nat.ofDigitChars at h
  simp only [Nat.mul_comm 10] at h
  exact h

theorem isDigit_not_space {c : Char} (h : c.isDigit = true) : isSpaceC c = false := by
  by_contra hs
  simp only [Bool.not_eq_false, isSpaceC, Bool.or_eq_true, beq_iff_eq] at hs
  rcases hs with ((((hs | hs) | hs) | hs) | hs) | hs <;> subst hs <;> revert h <;> decide

/-- Text whose first character is not a digit. -/
def NoDigit (r : List Char) : Prop := ∀ c s, r = c :: s → c.isDigit = false

theorem scanNat_digits {d r : List Char} (hd : d ≠ []) (hdig : ∀ c ∈ d, c.isDigit = true) (hr : NoDigit r) :
    scanNat (d ++ r) = some (digitsVal d) := by
  have : (d ++ r).takeWhile Char.isDigit = d := by
    rw [List.takeWhile_append_of_pos (by simpa using hdig)]
    cases r with
    | nil => simp
    | cons c s => simp [hr c s rfl]
  unfold scanNat
  rw [this]
  cases d with
  | nil => exact absurd rfl hd
  | cons => rfl

theorem scanInt_digits {a d r : List Char} (ha : ∀ c ∈ a, isSpaceC c = true) (hd : d ≠ [])
    (hdig : ∀ c ∈ d, c.isDigit = true) (hr : NoDigit r) :
    scanInt (a ++ (d ++ r)) = some (digitsVal d : ℤ) := by
  have hsk : skipSpace (a ++ (d ++ r)) = d ++ r := by
    rw [skipSpace_append ha]
    cases d with
    | nil => exact absurd rfl hd
    | cons c s => simp [skipSpace, isDigit_not_space (hdig c (by simp))]
  have := scanNat_digits hd hdig hr
  unfold scanInt
  rw [hsk]
  cases d with
  | nil => exact absurd rfl hd
  | cons c s =>
    have hc := hdig c (by simp)
    have h1 : c ≠ '-' := by rintro rfl; revert hc; decide
    have h2 : c ≠ '+' := by rintro rfl; revert hc; decide
    rw [List.cons_append] at this ⊢
    split
    · rename_i heq; exact absurd (List.cons.inj heq).1 h1
    · rename_i heq; exact absurd (List.cons.inj heq).1 h2
    · rw [this]; rfl

theorem blank_space {c : Char} (h : c = ' ' ∨ c = '\t') : isSpaceC c = true := by
  rcases h with rfl | rfl <;> decide

theorem noDigit_append {b r : List Char} (hb : ∀ c ∈ b, c = ' ' ∨ c = '\t' ∨ c = '\r') (hr : NoDigit r) :
    NoDigit (b ++ r) := by
  intro c s h
  cases b with
  | nil => exact hr c s h
  | cons x b =>
    rw [List.cons_append, List.cons.injEq] at h
    rw [← h.1]
    rcases hb x (by simp) with rfl | rfl | rfl <;> decide

theorem scanInt_field {w r : List Char} {n : ℕ} (h : IsField w n) (hr : NoDigit r) :
    scanInt (w ++ r) = some (n : ℤ) := by
  obtain ⟨a, b, rfl, ha, hb⟩ := h
  rw [List.append_assoc, List.append_assoc,
    scanInt_digits (fun c hc => blank_space (ha c hc)) Nat.toDigits_ne_nil
      (fun c hc => Nat.isDigit_of_mem_toDigits (by norm_num) (by norm_num) hc) (noDigit_append hb hr),
    digitsVal_toDigits]

/-- Behind the blanks of a field comes a digit. -/
theorem skipBlank_field {w r : List Char} {n : ℕ} (h : IsField w n) (hr : NoDigit r) :
    ∃ c s, skipBlank (w ++ r) = c :: s ∧ c.isDigit = true ∧ scanInt (c :: s) = some (n : ℤ) := by
  obtain ⟨a, b, rfl, ha, hb⟩ := h
  have hsk : skipBlank (a ++ (Nat.toDigits 10 n ++ b) ++ r) = Nat.toDigits 10 n ++ (b ++ r) := by
    unfold skipBlank
    rw [List.append_assoc, List.append_assoc, List.dropWhile_append_of_pos
      (by intro c hc; simpa using ha c hc)]
    cases hd : Nat.toDigits 10 n with
    | nil => exact absurd hd Nat.toDigits_ne_nil
    | cons c s =>
      have hc : c.isDigit = true := Nat.isDigit_of_mem_toDigits (b := 10) (n := n) (by norm_num) (by norm_num)
        (by rw [hd]; simp)
      have h1 : c ≠ ' ' := by rintro rfl; revert hc; decide
      have h2 : c ≠ '\t' := by rintro rfl; revert hc; decide
      simp [h1, h2]
  have hsc := scanInt_digits (a := []) (r := b ++ r) (by simp) (Nat.toDigits_ne_nil (n := n) (b := 10))
      (fun c hc => Nat.isDigit_of_mem_toDigits (by norm_num) (by norm_num) hc) (noDigit_append hb hr)
  rw [digitsVal_toDigits, List.nil_append] at hsc
  obtain ⟨c, s, hd⟩ := List.exists_cons_of_ne_nil (Nat.toDigits_ne_nil (n := n) (b := 10))
  refine ⟨c, s ++ (b ++ r), by rw [hsk, hd]; rfl, ?_, ?_⟩
  · exact Nat.isDigit_of_mem_toDigits (b := 10) (n := n) (by norm_num) (by norm_num) (by rw [hd]; simp)
  · rw [hd] at hsc; exact hsc

theorem field_no_colon {w : List Char} {n : ℕ} (h : IsField w n) : ':' ∉ w := by
  obtain ⟨a, b, rfl, ha, hb⟩ := h
  simp only [List.mem_append, not_or]
  refine ⟨fun h => ?_, fun h => ?_, fun h => ?_⟩
  · rcases ha _ h with h | h <;> exact absurd h (by decide)
  · exact absurd (Nat.isDigit_of_mem_toDigits (b := 10) (by norm_num) (by norm_num) h) (by decide)
  · rcases hb _ h with h | h | h <;> exact absurd h (by decide)

theorem field_no_newline {w : List Char} {n : ℕ} (h : IsField w n) : '\n' ∉ w := by
  obtain ⟨a, b, rfl, ha, hb⟩ := h
  simp only [List.mem_append, not_or]
  refine ⟨fun h => ?_, fun h => ?_, fun h => ?_⟩
  · rcases ha _ h with h | h <;> exact absurd h (by decide)
  · exact absurd (Nat.isDigit_of_mem_toDigits (b := 10) (by norm_num) (by norm_num) h) (by decide)
  · rcases hb _ h with h | h | h <;> exact absurd h (by decide)

/-- The fields with what follows them. -/
def fieldTails : List (List Char) → List Char → List (List Char)
  | [], _ => []
  | w :: ws, e => (w ++ ((ws.map fun x => ':' :: x).flatten ++ e)) :: fieldTails ws e

theorem colonTails_skip {w r : List Char} (h : ':' ∉ w) : colonTails (w ++ r) = colonTails r := by
  induction w with
  | nil => rfl
  | cons c w ih =>
    simp only [List.mem_cons, not_or] at h
    rw [List.cons_append, colonTails, if_neg (Ne.symm h.1), ih h.2]

theorem colonTails_fields {ws : List (List Char)} {e : List Char} (hw : ∀ w ∈ ws, ':' ∉ w) (he : ':' ∉ e) :
    colonTails ((ws.map fun x => ':' :: x).flatten ++ e) = fieldTails ws e := by
  induction ws with
  | nil => simpa [fieldTails, colonTails] using colonTails_skip (r := []) he
  | cons w ws ih =>
    simp only [List.map_cons, List.flatten_cons, List.cons_append, List.append_assoc, colonTails, if_true,
      fieldTails]
    rw [colonTails_skip (hw w (by simp)), ih fun x hx => hw x (by simp [hx])]

theorem noDigit_fields {ws : List (List Char)} {e : List Char} (he : NoDigit e) :
    NoDigit ((ws.map fun x => ':' :: x).flatten ++ e) := by
  cases ws with
  | nil => simpa using he
  | cons w ws =>
    intro c s h
    simp only [List.map_cons, List.flatten_cons, List.cons_append, List.cons.injEq] at h
    rw [← h.1]; decide

theorem countLines_fields {ws : List (List Char)} {ns : List ℕ} {e : List Char}
    (h : List.Forall₂ IsField ws ns) (he : NoDigit e) (np : Option ℤ) (k : ℕ) :
    ∃ np', countLines (fieldTails ws e) np k = .ok (k + (ns.filter (0 < ·)).length, np') := by
  induction h generalizing np k with
  | nil => exact ⟨np, by simp [fieldTails, countLines]⟩
  | @cons w n ws ns h1 h2 ih =>
    obtain ⟨c, s, h3, h4, h5⟩ := skipBlank_field h1 (noDigit_fields (ws := ws) he)
    have hc : ¬ (c = '\n' ∨ c = '\r') := by
      rintro (rfl | rfl) <;> revert h4 <;> decide
    obtain ⟨np', h6⟩ := ih (some (n : ℤ)) (if (0 : ℤ) < n then k + 1 else k)
    refine ⟨np', ?_⟩
    rw [fieldTails, countLines]
    simp only [h3, hc, if_false, h5, Option.some_or]
    rw [h6]
    rcases Nat.eq_zero_or_pos n with hn | hn
    · subst hn; simp
    · simp only [Nat.cast_pos, hn, if_true, List.filter_cons, decide_true, List.length_cons]
      congr 2; omega

theorem nmapFields_fields {ws : List (List Char)} {ns : List ℕ} {e : List Char}
    (h : List.Forall₂ IsField ws ns) (he : NoDigit e) (np : Option ℤ) :
    ∃ np', nmapFields (fieldTails ws e) np = .ok (ns.filter (0 < ·), np') := by
  induction h generalizing np with
  | nil => exact ⟨np, by simp [fieldTails, nmapFields]⟩
  | @cons w n ws ns h1 h2 ih =>
    obtain ⟨c, s, h3, h4, h5⟩ := skipBlank_field h1 (noDigit_fields (ws := ws) he)
    have hc : ¬ (c = '\n' ∨ c = '\r') := by
      rintro (rfl | rfl) <;> revert h4 <;> decide
    obtain ⟨np', h6⟩ := ih (some (n : ℤ))
    refine ⟨np', ?_⟩
    rw [fieldTails, nmapFields]
    simp only [h3, hc, if_false, h5, Option.some_or]
    rw [h6]
    rcases Nat.eq_zero_or_pos n with hn | hn
    · subst hn; simp
    · simp [hn]

theorem lineCounts_fields {ws : List (List Char)} {ns : List ℕ} {e : List Char}
    (h : List.Forall₂ IsField ws ns) (he : NoDigit e) (np : Option ℤ) (k : ℕ) (hk : k ≤ ns.length)
    (hpos : ∀ n ∈ ns.take k, 0 < n) :
    ∃ np', lineCounts k (fieldTails ws e) np = .ok (ns.take k, np') := by
  induction h generalizing np k with
  | nil =>
    simp only [List.length_nil, Nat.le_zero] at hk
    subst hk
    exact ⟨np, by simp [lineCounts]⟩
  | @cons w n ws ns h1 h2 ih =>
    cases k with
    | zero => exact ⟨np, by simp [lineCounts]⟩
    | succ k =>
      have hn : 0 < n := hpos n (by simp)
      obtain ⟨np', h6⟩ := ih (some (n : ℤ)) k (by simpa using hk) (fun m hm => hpos m (by simp [hm]))
      refine ⟨np', ?_⟩
      rw [fieldTails, lineCounts, scanInt_field h1 (noDigit_fields he)]
      simp only [Option.some_or, Nat.cast_pos, hn, if_true, h6]
      simp

theorem lineCounts_ub {ws : List (List Char)} {ns : List ℕ} {e : List Char}
    (h : List.Forall₂ IsField ws ns) (he : NoDigit e) (np : Option ℤ) (k : ℕ) (hk : k ≤ ns.length)
    (hz : 0 ∈ ns.take k) : lineCounts k (fieldTails ws e) np = .ub := by
  induction h generalizing np k with
  | nil => simp at hz
  | @cons w n ws ns h1 h2 ih =>
    cases k with
    | zero => simp at hz
    | succ k =>
      rw [fieldTails, lineCounts, scanInt_field h1 (noDigit_fields he)]
      rcases Nat.eq_zero_or_pos n with hn | hn
      · subst hn; simp
      · simp only [Option.some_or, Nat.cast_pos, hn, if_true]
        rw [ih (some (n : ℤ)) k (by simpa using hk) (by
          simp only [List.take_succ_cons, List.mem_cons] at hz
          rcases hz with hz | hz
          · omega
          · exact hz)]
        rfl

/-- With the empty lines last, the first fields are those with points. -/
theorem take_filter {ns : List ℕ} (h : EmptyLast ns) :
    ns.take (ns.filter (0 < ·)).length = ns.filter (0 < ·) := by
  induction ns with
  | nil => rfl
  | cons n ns ih =>
    have ih' := ih fun i j hij h0 m hm => h (i + 1) (j + 1) (by omega) (by simpa using h0) m (by simpa using hm)
    rcases Nat.eq_zero_or_pos n with hn | hn
    · subst hn
      have : ns.filter (0 < ·) = [] := by
        rw [List.filter_eq_nil_iff]
        intro m hm
        obtain ⟨j, hj, rfl⟩ := List.mem_iff_getElem.1 hm
        have := h 0 (j + 1) (by omega) rfl ns[j] (by simp [hj])
        simp [this]
      simp [this]
    · simp only [List.filter_cons, hn, decide_true, if_true, List.length_cons, List.take_succ_cons]
      rw [ih']

theorem take_filter_zero {ns : List ℕ} (h : ¬ EmptyLast ns) : 0 ∈ ns.take (ns.filter (0 < ·)).length := by
  by_contra hz
  apply h
  have hlen : (ns.take (ns.filter (0 < ·)).length).length = (ns.filter (0 < ·)).length := by
    rw [List.length_take, min_eq_left (List.length_filter_le _ _)]
  have h1 : (ns.take (ns.filter (0 < ·)).length).filter (0 < ·) = ns.take (ns.filter (0 < ·)).length := by
    rw [List.filter_eq_self]
    intro m hm
    have : m ≠ 0 := fun h0 => hz (h0 ▸ hm)
    simpa using Nat.pos_of_ne_zero this
  have h2 : (ns.drop (ns.filter (0 < ·)).length).filter (0 < ·) = [] := by
    have h3 := congrArg (fun l => (l.filter (0 < ·)).length) (List.take_append_drop (ns.filter (0 < ·)).length ns)
    simp only [List.filter_append, List.length_append, h1, hlen] at h3
    exact List.length_eq_zero_iff.1 (by omega)
  intro i j hij h0 n hn
  have hi : (ns.filter (0 < ·)).length ≤ i := by
    by_contra hlt
    apply hz
    rw [List.mem_iff_getElem?]
    exact ⟨i, by rw [List.getElem?_take]; simp [show i < (ns.filter (0 < ·)).length by omega, h0]⟩
  rw [List.filter_eq_nil_iff] at h2
  have : n ∈ ns.drop (ns.filter (0 < ·)).length := by
    rw [List.mem_iff_getElem?]
    exact ⟨j - (ns.filter (0 < ·)).length, by rw [List.getElem?_drop, ← hn]; congr 1; omega⟩
  have := h2 n this
  simpa using this

theorem head_parts {line : List Char} {n : ℕ} {ns : List ℕ} (h : IsHead line n ns) (e : List Char)
    (he : NoDigit e) (hc : ':' ∉ e) :
    ∃ ws, List.Forall₂ IsField ws ns ∧ scanInt ((line ++ e).drop 1) = some (n : ℤ) ∧
      colonTails ((line ++ e).drop 1) = fieldTails ws e := by
  obtain ⟨w, ws, rfl, h1, h2⟩ := h
  refine ⟨ws, h2, ?_, ?_⟩
  · simp only [List.cons_append, List.drop_succ_cons, List.drop_zero, List.append_assoc]
    exact scanInt_field h1 (noDigit_fields he)
  · simp only [List.cons_append, List.drop_succ_cons, List.drop_zero, List.append_assoc]
    rw [colonTails_skip (field_no_colon h1)]
    refine colonTails_fields (fun x hx => ?_) hc
    clear h1
    induction h2 with
    | nil => simp at hx
    | @cons a b l1 l2 hab _ ih =>
      rcases List.mem_cons.1 hx with rfl | hx
      · exact field_no_colon hab
      · exact ih hx

theorem noDigit_newline : NoDigit ['\n'] := by
  intro c s h
  simp only [List.cons.injEq] at h
  rw [← h.1]; decide

theorem headSet_head {vm : Bool} {line : List Char} {n : ℕ} {ns : List ℕ} (h : IsHead line n ns)
    (hv : vm = true → n = 0) (np : Option ℤ) :
    ∃ np', headSet vm (line ++ ['\n']) np = .ok ((n, (ns.filter (0 < ·)).length), np') := by
  obtain ⟨ws, h1, h2, h3⟩ := head_parts h ['\n'] noDigit_newline (by decide)
  obtain ⟨np', h4⟩ := countLines_fields h1 noDigit_newline np 0
  have hvm : (vm && decide ((0 : ℤ) < n)) = false := by
    cases vm with
    | false => rfl
    | true => simp [hv rfl]
  have hneg : ¬ ((n : ℤ) < 0) := by omega
  unfold headSet
  rw [h2, h3]
  simp only [hneg, if_false]
  cases h1 with
  | nil => exact ⟨np, by simp [fieldTails]⟩
  | @cons a b l1 l2 hab hr =>
    refine ⟨np', ?_⟩
    rw [fieldTails] at h4 ⊢
    simp only [h4, hvm, Int.toNat_natCast, Nat.zero_add]
    rfl

theorem headSets_heads {vm : Bool} {heads : List (List Char)} {counts : List (ℕ × List ℕ)}
    (h : List.Forall₂ (fun l c => IsHead l c.1 c.2) heads counts)
    (hv : vm = true → ∀ c ∈ counts, c.1 = 0) (np : Option ℤ) :
    ∃ np', headSets vm (heads.map (· ++ ['\n'])) np
      = .ok (counts.map fun c => (c.1, (c.2.filter (0 < ·)).length), np') := by
  induction h generalizing np with
  | nil => exact ⟨np, rfl⟩
  | @cons l c ls cs h1 h2 ih =>
    obtain ⟨np1, h3⟩ := headSet_head h1 (fun hvm => hv hvm c (by simp)) np
    obtain ⟨np2, h4⟩ := ih (fun hvm d hd => hv hvm d (by simp [hd])) np1
    exact ⟨np2, by simp [headSets, h3, h4]⟩

theorem headCounts_heads {heads : List (List Char)} {counts : List (ℕ × List ℕ)}
    (h : List.Forall₂ (fun l c => IsHead l c.1 c.2) heads counts) (np : Option ℤ)
    (ht : ∀ c ∈ counts, EmptyLast c.2) :
    headCounts (counts.map fun c => (c.1, (c.2.filter (0 < ·)).length)) (heads.map (· ++ ['\n'])) np
      = .ok (counts.map fun c => (c.1, c.2.filter (0 < ·))) := by
  induction h generalizing np with
  | nil => rfl
  | @cons l c ls cs h1 h2 ih =>
    obtain ⟨ws, h3, -, h5⟩ := head_parts h1 ['\n'] noDigit_newline (by decide)
    have htf := take_filter (ht c (by simp))
    obtain ⟨np1, h6⟩ := lineCounts_fields h3 noDigit_newline np _ (List.length_filter_le _ _)
      (by rw [htf]; intro m hm; simpa using (List.mem_filter.1 hm).2)
    rw [htf] at h6
    simp only [List.map_cons, headCounts, h5, h6, Res.ok_bind]
    rw [ih np1 fun d hd => ht d (by simp [hd])]
    rfl

theorem headCounts_ub {heads : List (List Char)} {counts : List (ℕ × List ℕ)}
    (h : List.Forall₂ (fun l c => IsHead l c.1 c.2) heads counts) (np : Option ℤ)
    (ht : ¬ ∀ c ∈ counts, EmptyLast c.2) :
    headCounts (counts.map fun c => (c.1, (c.2.filter (0 < ·)).length)) (heads.map (· ++ ['\n'])) np
      = .ub := by
  induction h generalizing np with
  | nil => simp at ht
  | @cons l c ls cs h1 h2 ih =>
    obtain ⟨ws, h3, -, h5⟩ := head_parts h1 ['\n'] noDigit_newline (by decide)
    by_cases hc : EmptyLast c.2
    · have htf := take_filter hc
      obtain ⟨np1, h6⟩ := lineCounts_fields h3 noDigit_newline np _ (List.length_filter_le _ _)
        (by rw [htf]; intro m hm; simpa using (List.mem_filter.1 hm).2)
      simp only [List.map_cons, headCounts, h5, h6, Res.ok_bind]
      rw [ih np1 (by
        intro hall; apply ht
        intro d hd
        rcases List.mem_cons.1 hd with rfl | hd
        · exact hc
        · exact hall d hd)]
      rfl
    · simp only [List.map_cons, headCounts, h5]
      rw [lineCounts_ub h3 noDigit_newline np _ (List.length_filter_le _ _) (take_filter_zero hc)]
      rfl

theorem fgetsBuf_line {buf l rest : List Char} (h : '\n' ∉ l) (hl : l.length < 255) :
    fgetsBuf buf (l ++ ('\n' :: rest)) = (l ++ ['\n'], rest) := by
  have := fgetsC_line (rest := rest) h hl
  cases l with
  | nil => exact this
  | cons => exact this

theorem takeLines_text {ls : List (List Char)} {buf rest : List Char} (h : ∀ l ∈ ls, '\n' ∉ l)
    (hl : ∀ l ∈ ls, l.length < 255) :
    takeLines ls.length buf ((ls.map fun l => l ++ ['\n']).flatten ++ rest) = (ls.map (· ++ ['\n']), rest) := by
  induction ls generalizing buf with
  | nil => rfl
  | cons l ls ih =>
    have e : ((l :: ls).map fun l => l ++ ['\n']).flatten ++ rest
        = l ++ ('\n' :: ((ls.map fun l => l ++ ['\n']).flatten ++ rest)) := by simp
    rw [e, List.length_cons, takeLines, fgetsBuf_line (h l (by simp)) (hl l (by simp)),
      ih (fun x hx => h x (by simp [hx])) (fun x hx => hl x (by simp [hx]))]
    rfl

theorem head_no_newline {line : List Char} {n : ℕ} {ns : List ℕ} (h : IsHead line n ns) : '\n' ∉ line := by
  obtain ⟨w, ws, rfl, h1, h2⟩ := h
  simp only [List.mem_cons, List.mem_append, not_or]
  refine ⟨by decide, field_no_newline h1, ?_⟩
  clear h1
  induction h2 with
  | nil => simp
  | @cons a b l1 l2 hab _ ih =>
    simp only [List.map_cons, List.flatten_cons, List.mem_append, List.mem_cons, not_or]
    exact ⟨⟨by decide, field_no_newline hab⟩, ih⟩

/-- First line and header lines of a data file as `read_data` gets them. -/
theorem data_lines {file : List Char} {counts : List (ℕ × List ℕ)} {body : List Char} (path : List Char)
    (h : IsData file counts body) :
    ∃ first heads, IsHead first counts.length [] ∧ List.Forall₂ (fun l c => IsHead l c.1 c.2) heads counts ∧
      (fgetsBuf path file).1 = first ++ ['\n'] ∧
      takeLines counts.length (first ++ ['\n']) (fgetsBuf path file).2 = (heads.map (· ++ ['\n']), body) := by
  obtain ⟨first, heads, rfl, h1, h2, h3⟩ := h.ex
  have hlen : counts.length = heads.length := h2.length_eq.symm
  have e : ((first :: heads).map fun l => l ++ ['\n']).flatten ++ body
      = first ++ ('\n' :: ((heads.map fun l => l ++ ['\n']).flatten ++ body)) := by simp
  have hf := fgetsBuf_line (buf := path) (rest := (heads.map fun l => l ++ ['\n']).flatten ++ body)
    (head_no_newline h1) (h3 first (by simp))
  refine ⟨first, heads, h1, h2, ?_, ?_⟩
  · rw [e, hf]
  · rw [e, hf, hlen]
    refine takeLines_text (fun l hl => ?_) fun l hl => h3 l (by simp [hl])
    clear hf e hlen h1 h3 h
    induction h2 with
    | nil => simp at hl
    | @cons a b l1 l2 hab _ ih =>
      rcases List.mem_cons.1 hl with rfl | hl
      · exact head_no_newline hab
      · exact ih hl

/-- The header determines which numbers of points are read. -/
theorem readMain_header {vm : Bool} {file : List Char} {counts : List (ℕ × List ℕ)} {body : List Char}
    (nums : List Char → List ℝ) (path : List Char) (h : IsData file counts body)
    (hv : vm = true → ∀ c ∈ counts, c.1 = 0) (ht : ∀ c ∈ counts, EmptyLast c.2) :
    readMain vm nums path file = readSets (counts.map fun c => (c.1, c.2.filter (0 < ·))) (nums body) := by
  obtain ⟨first, heads, h1, h2, h3, h4⟩ := data_lines path h
  obtain ⟨ws, -, h5, -⟩ := head_parts h1 ['\n'] noDigit_newline (by decide)
  obtain ⟨np, h6⟩ := headSets_heads h2 hv none
  unfold readMain
  simp only [h3, h5, Option.getD_some, Int.toNat_natCast, h4, h6, Res.ok_bind, headCounts_heads h2 np ht]

theorem readMain_ub {vm : Bool} {file : List Char} {counts : List (ℕ × List ℕ)} {body : List Char}
    (nums : List Char → List ℝ) (path : List Char) (h : IsData file counts body)
    (hv : vm = true → ∀ c ∈ counts, c.1 = 0) (ht : ¬ ∀ c ∈ counts, EmptyLast c.2) :
    readMain vm nums path file = .ub := by
  obtain ⟨first, heads, h1, h2, h3, h4⟩ := data_lines path h
  obtain ⟨ws, -, h5, -⟩ := head_parts h1 ['\n'] noDigit_newline (by decide)
  obtain ⟨np, h6⟩ := headSets_heads h2 hv none
  unfold readMain
  simp only [h3, h5, Option.getD_some, Int.toNat_natCast, h4, h6, Res.ok_bind, headCounts_ub h2 np ht,
    Res.ub_bind]

/-! ## The body -/

theorem takeRows_iff {n : ℕ} {l rest : List ℝ} {r : List Row} :
    takeRows n l = some (r, rest) ↔ r.length = n ∧ l = rowNums r ++ rest := by
  induction n generalizing l r with
  | zero =>
    simp only [takeRows, Option.some.injEq, Prod.mk.injEq, List.length_eq_zero_iff]
    constructor
    · rintro ⟨rfl, rfl⟩; simp [rowNums]
    · rintro ⟨rfl, rfl⟩; exact ⟨rfl, rfl⟩
  | succ n ih =>
    constructor
    · intro h
      match l, h with
      | a :: b :: c :: l, h =>
        simp only [takeRows, Option.map_eq_some_iff] at h
        obtain ⟨p, hp, he⟩ := h
        simp only [Prod.mk.injEq] at he
        obtain ⟨rfl, rfl⟩ := he
        obtain ⟨h1, h2⟩ := ih.1 hp
        exact ⟨by simp [h1], by rw [h2]; simp [rowNums]⟩
      | [], h => simp [takeRows] at h
      | [_], h => simp [takeRows] at h
      | [_, _], h => simp [takeRows] at h
    · rintro ⟨h1, h2⟩
      match r, h1 with
      | (a, b, c) :: r, h1 =>
        have e : l = a :: b :: c :: (rowNums r ++ rest) := by rw [h2]; simp [rowNums]
        rw [e]
        simp only [takeRows, Option.map_eq_some_iff, Prod.mk.injEq]
        exact ⟨(r, rest), ih.2 ⟨by simpa using h1, rfl⟩, rfl, rfl⟩

theorem takeRows_none {n : ℕ} {l : List ℝ} : takeRows n l = none ↔ l.length < 3 * n := by
  induction n generalizing l with
  | zero => simp [takeRows]
  | succ n ih =>
    match l with
    | a :: b :: c :: l => simp only [takeRows, Option.map_eq_none_iff, ih, List.length_cons]; omega
    | [] => simp [takeRows]
    | [_] => simp only [takeRows, List.length_cons, List.length_nil]; simp; omega
    | [_, _] => simp only [takeRows, List.length_cons, List.length_nil]; simp; omega

theorem unsorted_iff {r : List Row} : unsorted (r.map Prod.fst) = false ↔ Ascending r := by
  induction r with
  | nil => simp [unsorted, Ascending]
  | cons x r ih =>
    cases r with
    | nil => simp [unsorted, Ascending]
    | cons y r =>
      simp only [List.map_cons, unsorted, Bool.or_eq_false_iff, decide_eq_false_iff_not] at ih ⊢
      rw [ih]
      unfold Ascending
      rw [List.pairwise_cons (a := x)]
      constructor
      · rintro ⟨h1, h2⟩
        refine ⟨fun z hz => ?_, h2⟩
        have hxy : x.1 ≤ y.1 := by linarith [not_lt.1 h1]
        rcases List.mem_cons.1 hz with rfl | hz
        · exact hxy
        · exact hxy.trans ((List.pairwise_cons.1 h2).1 z hz)
      · rintro ⟨h1, h2⟩
        exact ⟨by have := h1 y (by simp); linarith, h2⟩

theorem readCurve_iff {n : ℕ} {l rest : List ℝ} {r : List Row} :
    readCurve n l = .ok (r, rest) ↔ r.length = n ∧ l = rowNums r ++ rest ∧ Ascending r := by
  unfold readCurve
  rw [← unsorted_iff, ← and_assoc, ← takeRows_iff]
  cases h : takeRows n l with
  | none => simp
  | some p =>
    by_cases hu : unsorted (p.1.map Prod.fst) = true
    · simp only [hu, if_true, Option.some.injEq]
      constructor
      · intro h; cases h
      · rintro ⟨rfl, h2⟩; simp [hu] at h2
    · simp only [hu, Option.some.injEq]
      constructor
      · intro h; simp only [Bool.false_eq_true, if_false, Res.ok.injEq] at h; subst h; exact ⟨rfl, by simpa using hu⟩
      · rintro ⟨rfl, -⟩; rfl

theorem readCurve_safe (n : ℕ) (l : List ℝ) : (∃ p, readCurve n l = .ok p) ∨ readCurve n l = .exit := by
  unfold readCurve
  cases takeRows n l with
  | none => right; rfl
  | some p =>
    by_cases hu : unsorted (p.1.map Prod.fst) = true
    · right; simp [hu]
    · left; exact ⟨p, by simp [hu]⟩

theorem readCurves_iff {ns : List ℕ} {l rest : List ℝ} {rs : List (List Row)} :
    readCurves ns l = .ok (rs, rest) ↔
      rs.map List.length = ns ∧ l = (rs.map rowNums).flatten ++ rest ∧ ∀ r ∈ rs, Ascending r := by
  induction ns generalizing l rs rest with
  | nil =>
    simp only [readCurves, Res.ok.injEq, Prod.mk.injEq, List.map_eq_nil_iff]
    constructor
    · rintro ⟨rfl, rfl⟩; simp
    · rintro ⟨rfl, h, -⟩; exact ⟨rfl, by simpa using h⟩
  | cons n ns ih =>
    simp only [readCurves, Res.bind_eq_ok, Res.ok.injEq, Prod.mk.injEq]
    constructor
    · rintro ⟨⟨r, l1⟩, h1, ⟨rs1, l2⟩, h2, h3, h4⟩
      simp only at h3 h4 h2
      subst h3 h4
      rw [readCurve_iff] at h1
      rw [ih] at h2
      obtain ⟨a1, a2, a3⟩ := h1
      obtain ⟨b1, b2, b3⟩ := h2
      refine ⟨by simp [a1, b1], by rw [a2, b2]; simp, ?_⟩
      intro r' hr
      rcases List.mem_cons.1 hr with rfl | hr
      · exact a3
      · exact b3 _ hr
    · rintro ⟨h1, h2, h3⟩
      cases rs with
      | nil => simp at h1
      | cons r rs =>
        simp only [List.map_cons, List.cons.injEq] at h1
        refine ⟨(r, (rs.map rowNums).flatten ++ rest), readCurve_iff.2 ⟨h1.1, ?_, h3 r (by simp)⟩,
          (rs, rest), ih.2 ⟨h1.2, rfl, fun r' hr => h3 r' (by simp [hr])⟩, rfl, rfl⟩
        rw [h2]; simp

theorem readCurves_safe (ns : List ℕ) (l : List ℝ) :
    (∃ p, readCurves ns l = .ok p) ∨ readCurves ns l = .exit := by
  induction ns generalizing l with
  | nil => left; exact ⟨_, rfl⟩
  | cons n ns ih =>
    rcases readCurve_safe n l with ⟨p, h⟩ | h
    · rcases ih p.2 with ⟨q, h2⟩ | h2
      · left; exact ⟨(p.1 :: q.1, q.2), by simp [readCurves, h, h2]⟩
      · right; simp [readCurves, h, h2]
    · right; simp [readCurves, h]

theorem readSets_iff {hs : List (ℕ × List ℕ)} {l : List ℝ} {sets : List FSet} :
    readSets hs l = .ok sets ↔
      sets.map (fun s => (s.con.length, s.lines.map List.length)) = hs ∧
      (∃ rest, l = setNums sets ++ rest) ∧ ∀ s ∈ sets, Ascending s.con ∧ ∀ r ∈ s.lines, Ascending r := by
  induction hs generalizing l sets with
  | nil =>
    simp only [readSets, Res.ok.injEq, List.map_eq_nil_iff]
    constructor
    · rintro rfl; exact ⟨rfl, ⟨l, by simp [setNums]⟩, by simp⟩
    · rintro ⟨rfl, -⟩; rfl
  | cons h hs ih =>
    obtain ⟨n, ns⟩ := h
    simp only [readSets, Res.bind_eq_ok, Res.ok.injEq]
    constructor
    · rintro ⟨⟨c, l1⟩, h1, ⟨rs, l2⟩, h2, r, h3, rfl⟩
      rw [readCurve_iff] at h1
      rw [readCurves_iff] at h2
      rw [ih] at h3
      obtain ⟨a1, a2, a3⟩ := h1
      obtain ⟨b1, b2, b3⟩ := h2
      obtain ⟨c1, ⟨rest, c2⟩, c3⟩ := h3
      simp only at b2 c2
      refine ⟨by simp [a1, b1, c1], ⟨rest, ?_⟩, ?_⟩
      · rw [a2, b2, c2]; simp [setNums]
      · intro s hs
        rcases List.mem_cons.1 hs with rfl | hs
        · exact ⟨a3, b3⟩
        · exact c3 s hs
    · rintro ⟨h1, ⟨rest, h2⟩, h3⟩
      cases sets with
      | nil => simp at h1
      | cons s sets =>
        simp only [List.map_cons, List.cons.injEq, Prod.mk.injEq] at h1
        refine ⟨(s.con, (s.lines.map rowNums).flatten ++ (setNums sets ++ rest)),
          readCurve_iff.2 ⟨h1.1.1, ?_, (h3 s (by simp)).1⟩,
          (s.lines, setNums sets ++ rest), readCurves_iff.2 ⟨h1.1.2, rfl, (h3 s (by simp)).2⟩,
          sets, ih.2 ⟨h1.2, ⟨rest, rfl⟩, fun s' hs => h3 s' (by simp [hs])⟩, rfl⟩
        rw [h2]; simp [setNums]

theorem readSets_safe (hs : List (ℕ × List ℕ)) (l : List ℝ) :
    (∃ p, readSets hs l = .ok p) ∨ readSets hs l = .exit := by
  induction hs generalizing l with
  | nil => left; exact ⟨_, rfl⟩
  | cons h hs ih =>
    obtain ⟨n, ns⟩ := h
    rcases readCurve_safe n l with ⟨p, h⟩ | h
    · rcases readCurves_safe ns p.2 with ⟨q, h2⟩ | h2
      · rcases ih q.2 with ⟨r, h3⟩ | h3
        · left; exact ⟨⟨p.1, q.1⟩ :: r, by simp [readSets, h, h2, h3]⟩
        · right; simp [readSets, h, h2, h3]
      · right; simp [readSets, h, h2]
    · right; simp [readSets, h]

/-! ## The mode `nmap` -/

theorem nmapCount_heads {heads : List (List Char)} {counts : List (ℕ × List ℕ)}
    (h : List.Forall₂ (fun l c => IsHead l c.1 c.2) heads counts) (hne : ∀ c ∈ counts, c.2 ≠ [])
    (np : Option ℤ) :
    ∃ np', nmapCount (heads.map (· ++ ['\n'])) np
      = .ok ((counts.map fun c => c.1 :: c.2.filter (0 < ·)).flatten.length, np') := by
  induction h generalizing np with
  | nil => exact ⟨np, rfl⟩
  | @cons l c ls cs h1 h2 ih =>
    obtain ⟨ws, h3, -, h5⟩ := head_parts h1 ['\n'] noDigit_newline (by decide)
    obtain ⟨np1, h6⟩ := nmapFields_fields h3 noDigit_newline np
    obtain ⟨np2, h7⟩ := ih (fun d hd => hne d (by simp [hd])) np1
    refine ⟨np2, ?_⟩
    obtain ⟨m, ms, hc⟩ := List.exists_cons_of_ne_nil (hne c (by simp))
    rw [List.map_cons, nmapCount, h5]
    rw [hc] at h3
    cases h3 with
    | cons a b =>
      rw [fieldTails] at h6 ⊢
      simp only []
      rw [h6, Res.ok_bind, h7, Res.ok_bind]
      simp only [List.map_cons, List.flatten_cons, List.length_append, List.length_cons]
      congr 2; omega

theorem nmapCount_ub {heads : List (List Char)} {counts : List (ℕ × List ℕ)}
    (h : List.Forall₂ (fun l c => IsHead l c.1 c.2) heads counts) (hne : ¬ ∀ c ∈ counts, c.2 ≠ [])
    (np : Option ℤ) : nmapCount (heads.map (· ++ ['\n'])) np = .ub := by
  induction h generalizing np with
  | nil => simp at hne
  | @cons l c ls cs h1 h2 ih =>
    obtain ⟨ws, h3, -, h5⟩ := head_parts h1 ['\n'] noDigit_newline (by decide)
    obtain ⟨np1, h6⟩ := nmapFields_fields h3 noDigit_newline np
    rw [List.map_cons, nmapCount, h5]
    by_cases hc : c.2 = []
    · rw [hc] at h3
      cases h3
      rfl
    · have h7 := ih (fun hall => hne fun d hd => by
        rcases List.mem_cons.1 hd with rfl | hd
        · exact hc
        · exact hall d hd) np1
      obtain ⟨m, ms, hc'⟩ := List.exists_cons_of_ne_nil hc
      rw [hc'] at h3
      cases h3 with
      | cons a b =>
        rw [fieldTails] at h6 ⊢
        simp only []
        rw [h6, Res.ok_bind, h7]
        rfl

theorem nmapCounts_heads {heads : List (List Char)} {counts : List (ℕ × List ℕ)}
    (h : List.Forall₂ (fun l c => IsHead l c.1 c.2) heads counts) (np : Option ℤ) :
    ∃ np', nmapCounts (heads.map (· ++ ['\n'])) np
      = .ok ((counts.map fun c => c.1 :: c.2.filter (0 < ·)).flatten, np') := by
  induction h generalizing np with
  | nil => exact ⟨np, rfl⟩
  | @cons l c ls cs h1 h2 ih =>
    obtain ⟨ws, h3, h4, h5⟩ := head_parts h1 ['\n'] noDigit_newline (by decide)
    obtain ⟨np1, h6⟩ := nmapFields_fields h3 noDigit_newline np
    obtain ⟨np2, h7⟩ := ih np1
    refine ⟨np2, ?_⟩
    have hneg : ¬ ((c.1 : ℤ) < 0) := by omega
    rw [List.map_cons, nmapCounts, h4, h5]
    simp only [hneg, if_false, h6, h7, Res.ok_bind]
    simp

theorem readNmap_header {file : List Char} {counts : List (ℕ × List ℕ)} {body : List Char}
    (nums : List Char → List ℝ) (path : List Char) (h : IsData file counts body)
    (hne : ∀ c ∈ counts, c.2 ≠ []) :
    readNmap nums path file
      = readSets ((counts.map fun c => c.1 :: c.2.filter (0 < ·)).flatten.map fun n => (n, [])) (nums body) := by
  obtain ⟨first, heads, h1, h2, h3, h4⟩ := data_lines path h
  obtain ⟨ws, -, h5, -⟩ := head_parts h1 ['\n'] noDigit_newline (by decide)
  obtain ⟨np, h6⟩ := nmapCount_heads h2 hne none
  obtain ⟨np', h7⟩ := nmapCounts_heads h2 np
  unfold readNmap
  simp only [h3, h5, Int.toNat_natCast, h4, h6, h7, Res.ok_bind, lt_irrefl, if_false]

theorem readNmap_ub {file : List Char} {counts : List (ℕ × List ℕ)} {body : List Char}
    (nums : List Char → List ℝ) (path : List Char) (h : IsData file counts body)
    (hne : ¬ ∀ c ∈ counts, c.2 ≠ []) : readNmap nums path file = .ub := by
  obtain ⟨first, heads, h1, h2, h3, h4⟩ := data_lines path h
  obtain ⟨ws, -, h5, -⟩ := head_parts h1 ['\n'] noDigit_newline (by decide)
  unfold readNmap
  simp only [h3, h5, Int.toNat_natCast, h4, nmapCount_ub h2 hne none, Res.ub_bind]

end Mica
