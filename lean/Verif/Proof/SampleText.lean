import Verif.Model.SampleText
import Verif.Proof.NumText

/-!
# Lemmas on the sampler's files as texts
-/

namespace Mica

/-! ### `%g` -/

theorem digitsVal_zeros_right (s : List Char) (z : ℕ) : digitsVal (s ++ List.replicate z '0') = digitsVal s * 10 ^ z := by
  rw [digitsVal_append, List.length_replicate]
  have := digitsVal_zeros z []
  simp only [List.append_nil] at this
  rw [this]
  simp [digitsVal]

/-- The digits that remain, and the zeros removed. -/
theorem strip_spec (s : List Char) : ∃ z : ℕ, s = s.rdropWhile (· == '0') ++ List.replicate z '0' := by
  refine ⟨(s.rtakeWhile (· == '0')).length, ?_⟩
  have h : s.rtakeWhile (· == '0') = List.replicate (s.rtakeWhile (· == '0')).length '0' := by
    rw [List.eq_replicate_iff]
    refine ⟨rfl, fun c hc => ?_⟩
    simpa using List.mem_rtakeWhile_imp hc
  rw [← h, List.rdropWhile_append_rtakeWhile]

/-- What follows a number in the files: nothing, or white space. -/
def NumEnd (r : List Char) : Prop := r = [] ∨ ∃ c s, r = c :: s ∧ isSpaceC c = true

theorem NumEnd.noDigit {r : List Char} (h : NumEnd r) : NoDigit r := by
  intro c s hs
  rcases h with rfl | ⟨c', s', rfl, h⟩
  · cases hs
  · rw [← (List.cons.inj hs).1]
    by_contra hn
    have := isDigit_not_space (Bool.of_not_eq_false hn)
    rw [this] at h; exact absurd h (by decide)

theorem NumEnd.ne {r : List Char} (h : NumEnd r) {c : Char} {s : List Char} (hs : r = c :: s) : c ≠ '.' ∧ c ≠ 'e' ∧ c ≠ 'E' := by
  rcases h with rfl | ⟨c', s', rfl, h⟩
  · cases hs
  · rw [← (List.cons.inj hs).1]
    refine ⟨?_, ?_, ?_⟩ <;> (rintro rfl; exact absurd h (by decide))

theorem NumEnd.expo {r : List Char} (h : NumEnd r) : takeExpo r = some (0, r) := by
  cases r with
  | nil => rfl
  | cons c s =>
    have := h.ne rfl
    simp [takeExpo, this.2.1, this.2.2]

theorem takeFrac_dot {s r : List Char} (hs : ∀ c ∈ s, c.isDigit = true) (hr : NoDigit r) (hd : ∀ c t, r = c :: t → c ≠ '.') :
    takeFrac (dotText s ++ r) = (s.rdropWhile (· == '0'), r) := by
  have hs' : ∀ c ∈ s.rdropWhile (· == '0'), c.isDigit = true := fun c hc =>
    hs c ((List.rdropWhile_prefix _ _).subset hc)
  unfold dotText
  by_cases h : s.rdropWhile (· == '0') = []
  · rw [if_pos h, h, List.nil_append]
    unfold takeFrac
    split
    · exact absurd rfl (hd _ _ rfl)
    · rfl
  · rw [if_neg h]
    have := span_digits hs' hr
    simp only [List.cons_append, takeFrac, this.1, this.2]

/-- Reading a number with digits `ip`, digits `fr` behind the point of which trailing zeros are left out, and an
exponent. -/
theorem scanLf_num (neg : Bool) {ip fr a r ex rest : List Char} {e : ℤ} (hip : ip ≠ []) (hid : ∀ c ∈ ip, c.isDigit = true)
    (hfd : ∀ c ∈ fr, c.isDigit = true) (ha : ∀ c ∈ a, isSpaceC c = true) (hn : NoDigit ex) (hd : ∀ c t, ex = c :: t → c ≠ '.')
    (hex : takeExpo ex = some (e, r)) (hrest : rest = (if neg then ['-'] else []) ++ (ip ++ (dotText fr ++ ex))) :
    scanLf (a ++ rest) = some ((if neg then -1 else 1) * ((digitsVal (ip ++ fr) : ℝ) * (10 : ℝ) ^ (e - (fr.length : ℤ))), r) := by
  subst hrest
  obtain ⟨c, s, rfl⟩ := List.exists_cons_of_ne_nil hip
  have hc := hid c (by simp)
  have h1 : c ≠ '-' := by rintro rfl; exact absurd hc (by decide)
  have h2 : c ≠ '+' := by rintro rfl; exact absurd hc (by decide)
  have hsk : skipSpace (a ++ ((if neg then ['-'] else []) ++ (c :: s ++ (dotText fr ++ ex)))) =
      (if neg then ['-'] else []) ++ (c :: s ++ (dotText fr ++ ex)) := by
    rw [skipSpace_append ha]
    cases neg
    · simp [skipSpace, isDigit_not_space hc]
    · simp [skipSpace, isSpaceC]
  have hsg : takeSign ((if neg then ['-'] else []) ++ (c :: s ++ (dotText fr ++ ex))) = (neg, c :: s ++ (dotText fr ++ ex)) := by
    cases neg
    · simp only [Bool.false_eq_true, if_false, List.nil_append, List.cons_append, takeSign]
      split
      · rename_i heq; exact absurd (List.cons.inj heq).1 h1
      · rename_i heq; exact absurd (List.cons.inj heq).1 h2
      · rfl
    · rfl
  have hnd : NoDigit (dotText fr ++ ex) := by
    intro c' t h
    unfold dotText at h
    split at h
    · exact hn c' t (by simpa using h)
    · rw [← (List.cons.inj h).1]; decide
  have hsp := span_digits hid hnd
  have htf := takeFrac_dot hfd hn hd
  unfold scanLf
  simp only [hsk, hsg, hsp.1, hsp.2, htf, hex, List.cons_ne_nil, false_and, if_false]
  obtain ⟨z, hz⟩ := strip_spec fr
  set q := fr.rdropWhile (· == '0') with hq
  have e1 : digitsVal (c :: s ++ fr) = digitsVal (c :: s ++ q) * 10 ^ z := by
    rw [hz, ← List.append_assoc, digitsVal_zeros_right]
  have e2 : fr.length = q.length + z := by
    conv_lhs => rw [hz]
    simp
  rw [e1, e2]
  congr 3
  push_cast
  rw [mul_assoc, ← zpow_natCast, ← zpow_add₀ (by norm_num)]
  congr 2
  ring

theorem sciParts_zero (q : ℕ) : sciParts q 0 = (0, 0) := by simp [sciParts]

/-- `%g` is read back as the number printed. -/
theorem scanLf_g (q : ℕ) (x : ℝ) {a r : List Char} (ha : ∀ c ∈ a, isSpaceC c = true) (hr : NumEnd r) :
    scanLf (a ++ (gText q x ++ r)) = some (sciVal q x, r) := by
  have hlt : (sciParts q |x|).1 < 10 ^ (q + 1) := sciParts_lt (abs_nonneg x)
  have hval : sciVal q x = (if decide (x < 0) = true then -1 else 1) *
      (((sciParts q |x|).1 : ℝ) * (10 : ℝ) ^ ((sciParts q |x|).2 - (q : ℤ))) := by
    unfold sciVal sciAbs
    by_cases h : x < 0 <;> simp [h]
  generalize hm : (sciParts q |x|).1 = m at *
  generalize he : (sciParts q |x|).2 = e at *
  rw [hval]
  have hg : gText q x = (if decide (x < 0) = true then ['-'] else []) ++ (if e < -4 ∨ (q : ℤ) < e then
      lastDigits 1 (m / 10 ^ q) ++ (dotText (lastDigits q (m % 10 ^ q)) ++ 'e' :: sciExpo e)
    else
      Nat.toDigits 10 (m / 10 ^ ((q : ℤ) - e).toNat) ++
        dotText (lastDigits ((q : ℤ) - e).toNat (m % 10 ^ ((q : ℤ) - e).toNat))) := by
    unfold gText
    simp only [hm, he, decide_eq_true_eq]
  by_cases hs : e < -4 ∨ (q : ℤ) < e
  · rw [if_pos hs] at hg
    obtain ⟨i1, i2, i3⟩ := lastDigits_spec 1 (m / 10 ^ q)
    obtain ⟨f1, f2, f3⟩ := lastDigits_spec q (m % 10 ^ q)
    have hi : digitsVal (lastDigits 1 (m / 10 ^ q)) = m / 10 ^ q := by
      rw [i3, pow_one, Nat.mod_eq_of_lt]
      rw [Nat.div_lt_iff_lt_mul (by positivity), ← pow_succ']; exact hlt
    have hf : digitsVal (lastDigits q (m % 10 ^ q)) = m % 10 ^ q := by
      rw [f3, Nat.mod_mod]
    have key := scanLf_num (decide (x < 0)) (ip := lastDigits 1 (m / 10 ^ q)) (fr := lastDigits q (m % 10 ^ q)) (a := a)
      (ex := 'e' :: (sciExpo e ++ r)) (r := r) (e := e) (rest := gText q x ++ r)
      (by intro h; rw [h] at i1; simp at i1) i2 f2 ha
      (by intro c t h; rw [← (List.cons.inj h).1]; decide) (by intro c t h; rw [← (List.cons.inj h).1]; decide)
      (takeExpo_text e hr.noDigit) (by rw [hg]; simp only [List.append_assoc, List.cons_append])
    rw [key, digitsVal_append, f1, hi, hf, Nat.div_add_mod']
  · rw [if_neg hs] at hg
    set k := ((q : ℤ) - e).toNat with hk
    have hke : (k : ℤ) = q - e := by omega
    obtain ⟨f1, f2, f3⟩ := lastDigits_spec k (m % 10 ^ k)
    have hf : digitsVal (lastDigits k (m % 10 ^ k)) = m % 10 ^ k := by
      rw [f3, Nat.mod_mod]
    have key := scanLf_num (decide (x < 0)) (ip := Nat.toDigits 10 (m / 10 ^ k)) (fr := lastDigits k (m % 10 ^ k)) (a := a)
      (ex := r) (r := r) (e := 0) (rest := gText q x ++ r)
      Nat.toDigits_ne_nil (fun c hc => Nat.isDigit_of_mem_toDigits (by norm_num) (by norm_num) hc) f2 ha
      hr.noDigit (fun c t h => (hr.ne h).1) hr.expo (by rw [hg]; simp only [List.append_assoc])
    rw [key, digitsVal_append, f1, hf, digitsVal_toDigits, Nat.div_add_mod', hke]
    rw [show (0 : ℤ) - (q - e) = e - q by ring]

/-! ### Lengths; no newlines -/

theorem dotText_length (s : List Char) : (dotText s).length ≤ s.length + 1 := by
  have := (List.rdropWhile_prefix (fun c : Char => c == '0') s).length_le
  unfold dotText
  split
  · simp
  · simpa using this

theorem gText_length {q : ℕ} {x : ℝ} (h : ThreeDigitExp x) : (gText q x).length ≤ 2 * q + 8 := by
  have hlt : (sciParts q |x|).1 < 10 ^ (q + 1) := sciParts_lt (abs_nonneg x)
  have hx := sciExpo_length (p := q) h
  unfold gText
  generalize (sciParts q |x|).1 = m at *
  generalize (sciParts q |x|).2 = e at *
  have h3 : (if x < 0 then ['-'] else []).length ≤ 1 := by split <;> simp
  dsimp only
  by_cases hs : e < -4 ∨ (q : ℤ) < e
  · rw [if_pos hs]
    have h1 := (lastDigits_spec 1 (m / 10 ^ q)).1
    have h2 := (lastDigits_spec q (m % 10 ^ q)).1
    have h4 := dotText_length (lastDigits q (m % 10 ^ q))
    simp only [List.length_append, List.length_cons]
    omega
  · rw [if_neg hs]
    have h1 := Nat.toDigits_length 10 (m / 10 ^ ((q : ℤ) - e).toNat) (q + 1) (by omega)
      (lt_of_le_of_lt (Nat.div_le_self _ _) hlt)
    have h2 := (lastDigits_spec ((q : ℤ) - e).toNat (m % 10 ^ ((q : ℤ) - e).toNat)).1
    have h4 := dotText_length (lastDigits ((q : ℤ) - e).toNat (m % 10 ^ ((q : ℤ) - e).toNat))
    have h5 : ((q : ℤ) - e).toNat ≤ q + 4 := by omega
    simp only [List.length_append]
    omega

/-- Characters of words. -/
def Word (w : List Char) : Prop := ∀ c ∈ w, isSpaceC c = false

theorem Word.append {a b : List Char} (ha : Word a) (hb : Word b) : Word (a ++ b) := by
  intro c hc
  rcases List.mem_append.1 hc with hc | hc
  · exact ha c hc
  · exact hb c hc

theorem Word.digits {a : List Char} (h : ∀ c ∈ a, c.isDigit = true) : Word a := fun c hc => isDigit_not_space (h c hc)

theorem Word.cons {c : Char} {a : List Char} (hc : isSpaceC c = false) (ha : Word a) : Word (c :: a) := by
  intro d hd
  rcases List.mem_cons.1 hd with rfl | hd
  · exact hc
  · exact ha d hd

theorem Word.nat (n : ℕ) : Word (Nat.toDigits 10 n) :=
  .digits fun _ hc => Nat.isDigit_of_mem_toDigits (by norm_num) (by norm_num) hc

theorem Word.dot {s : List Char} (h : ∀ c ∈ s, c.isDigit = true) : Word (dotText s) := by
  unfold dotText
  split
  · intro c hc; simp at hc
  · exact .cons (by decide) (.digits fun c hc => h c ((List.rdropWhile_prefix _ _).subset hc))

theorem Word.g (q : ℕ) (x : ℝ) : Word (gText q x) := by
  unfold gText
  refine .append (by split <;> intro c hc <;> simp at hc; rw [hc]; decide) ?_
  split
  · refine .append (.digits (lastDigits_spec _ _).2.1) (.append (.dot (lastDigits_spec _ _).2.1) (.cons (by decide) ?_))
    obtain ⟨d, -, hdd, -, he⟩ := sciExpo_spec (sciParts q |x|).2
    rw [he]
    exact .cons (by split <;> decide) (.digits hdd)
  · exact .append (.nat _) (.dot (lastDigits_spec _ _).2.1)

/-- Texts without newline. -/
theorem noNewline_word {w : List Char} (h : Word w) : '\n' ∉ w := fun hc => absurd (h _ hc) (by decide)

theorem noNewline_padL (n : ℕ) {w : List Char} (h : Word w) : '\n' ∉ padL n w := by
  unfold padL
  intro hc
  rcases List.mem_append.1 hc with hc | hc
  · exact absurd (List.eq_of_mem_replicate hc) (by decide)
  · exact noNewline_word h hc

/-! ### Lines -/

/-- Numbers for which the lines of the files fit the buffer: all that a `double` can hold, and counts of 64 bits. -/
structure LevelRow.Fits (l : LevelRow) : Prop where
  logX : ThreeDigitExp l.logX
  logl : ThreeDigitExp l.logl
  tie : |l.tie| < 10 ^ 5
  counts : l.accepts < 10 ^ 20 ∧ l.tries < 10 ^ 20 ∧ l.exceeds < 10 ^ 20 ∧ l.visits < 10 ^ 20

structure SavedRow.Fits (s : SavedRow) : Prop where
  logl : ThreeDigitExp s.logl
  tie : |s.tie| < 10 ^ 5
  counts : s.level < 10 ^ 20 ∧ s.id < 10 ^ 20

theorem levelLine_line {l : LevelRow} (h : l.Fits) : '\n' ∉ levelLine l ∧ (levelLine l).length < 255 := by
  have w6 : Word (fmt6 l.tie) := (readsBack_fmt6.word l.tie).2
  constructor
  · simp only [levelLine, List.mem_append, List.mem_cons, not_or]
    exact ⟨noNewline_padL _ (.g _ _), by decide, noNewline_padL _ (.g _ _), by decide, noNewline_word w6, by decide,
      noNewline_word (.nat _), by decide, noNewline_word (.nat _), by decide, noNewline_word (.nat _), by decide,
      noNewline_word (.nat _)⟩
  · have a1 := gText_length (q := 11) h.logX
    have a2 := gText_length (q := 11) h.logl
    have a3 := fmt6_length _ 5 h.tie
    have t := fun n (hn : n < 10 ^ 20) => Nat.toDigits_length 10 n 20 (by norm_num) hn
    have b1 := t _ h.counts.1
    have b2 := t _ h.counts.2.1
    have b3 := t _ h.counts.2.2.1
    have b4 := t _ h.counts.2.2.2
    simp only [levelLine, List.length_append, List.length_cons, padL_length]
    omega

theorem infoLine_line {s : SavedRow} (h : s.Fits) : '\n' ∉ infoLine s ∧ (infoLine s).length < 255 := by
  have w6 : Word (fmt6 s.tie) := (readsBack_fmt6.word s.tie).2
  have we : Word (sciText 6 s.logl) := ((scanLf_sci 6).word s.logl).2
  constructor
  · simp only [infoLine, List.mem_append, List.mem_cons, not_or]
    exact ⟨noNewline_word (.nat _), by decide, noNewline_word we, by decide, noNewline_word w6, by decide, noNewline_word (.nat _)⟩
  · have a2 := sciText_length3 (p := 6) h.logl
    have a3 := fmt6_length _ 5 h.tie
    have t := fun n (hn : n < 10 ^ 20) => Nat.toDigits_length 10 n 20 (by norm_num) hn
    have b1 := t _ h.counts.1
    have b2 := t _ h.counts.2
    simp only [infoLine, List.length_append, List.length_cons]
    omega

theorem scanLf_nat (n : ℕ) {a r : List Char} (ha : ∀ c ∈ a, isSpaceC c = true) (hr : NumEnd r) :
    scanLf (a ++ (Nat.toDigits 10 n ++ r)) = some ((n : ℝ), r) := by
  have key := scanLf_num false (ip := Nat.toDigits 10 n) (fr := []) (a := a) (ex := r) (r := r) (e := 0)
    (rest := Nat.toDigits 10 n ++ r)
    Nat.toDigits_ne_nil (fun c hc => Nat.isDigit_of_mem_toDigits (by norm_num) (by norm_num) hc) (by simp) ha
    hr.noDigit (fun c t h => (hr.ne h).1) hr.expo (by simp [dotText])
  rw [key, List.append_nil, digitsVal_toDigits]
  simp

theorem NumEnd.blank (s : List Char) : NumEnd (' ' :: s) := .inr ⟨' ', s, rfl, by decide⟩

theorem space_blanks (k : ℕ) : ∀ c ∈ ' ' :: List.replicate k ' ', isSpaceC c = true := by
  intro c hc
  rcases List.mem_cons.1 hc with rfl | hc
  · decide
  · rw [List.eq_of_mem_replicate hc]; decide

theorem scan3_level (l : LevelRow) (r : List Char) :
    scan3 (levelLine l ++ r) = some (sciVal 11 l.logX, sciVal 11 l.logl, rd6 l.tie) := by
  unfold scan3 levelLine padL
  simp only [List.append_assoc, List.cons_append]
  rw [scanLf_g 11 l.logX (fun c hc => by rw [List.eq_of_mem_replicate hc]; decide) (.blank _)]
  simp only [Option.bind_eq_bind, Option.bind_some]
  rw [← List.cons_append, scanLf_g 11 l.logl (space_blanks _) (.blank _)]
  simp only [Option.bind_some]
  have := scanLf_fmt6_ws l.tie (a := [' ']) (r := ' ' :: (Nat.toDigits 10 l.accepts ++
    ' ' :: (Nat.toDigits 10 l.tries ++ ' ' :: (Nat.toDigits 10 l.exceeds ++ ' ' :: (Nat.toDigits 10 l.visits ++ r)))))
    (by decide) (.inr ⟨_, rfl⟩)
  rw [List.singleton_append] at this
  rw [this]
  rfl

theorem scan3_info (s : SavedRow) (r : List Char) :
    scan3 (infoLine s ++ r) = some ((s.level : ℝ), sciVal 6 s.logl, rd6 s.tie) := by
  unfold scan3 infoLine
  simp only [List.append_assoc, List.cons_append]
  have h1 := scanLf_nat s.level (a := []) (r := ' ' :: (sciText 6 s.logl ++ ' ' :: (fmt6 s.tie ++ ' ' :: (Nat.toDigits 10 s.id ++ r))))
    (by simp) (.blank _)
  rw [List.nil_append] at h1
  rw [h1]
  simp only [Option.bind_eq_bind, Option.bind_some]
  have h2 := scanLf_text 6 s.logl (a := [' ']) (r := ' ' :: (fmt6 s.tie ++ ' ' :: (Nat.toDigits 10 s.id ++ r)))
    (by decide) (NumEnd.blank _).noDigit
  rw [List.singleton_append] at h2
  rw [h2]
  simp only [Option.bind_some]
  have h3 := scanLf_fmt6_ws s.tie (a := [' ']) (r := ' ' :: (Nat.toDigits 10 s.id ++ r)) (by decide) (.inr ⟨_, rfl⟩)
  rw [List.singleton_append] at h3
  rw [h3]
  rfl

/-- Lines of three numbers: as many as wanted, or the program stops. -/
theorem readThree_lines {α : Type} {f : α → List Char} {g : α → ℝ × ℝ × ℝ} (ls : List α)
    (h : ∀ l ∈ ls, '\n' ∉ f l ∧ (f l).length < 255) (hg : ∀ l, scan3 (f l ++ ['\n']) = some (g l)) (n : ℕ) :
    readThree n (ls.map fun l => f l ++ ['\n']).flatten = if ls.length < n then .exit else .ok ((ls.take n).map g) := by
  induction ls generalizing n with
  | nil =>
    cases n with
    | zero => rfl
    | succ n =>
      have : scan3 (fgetsBuf [] []).1 = none := by
        simp [fgetsBuf, scan3, scanLf, skipSpace, takeSign, takeFrac]
      simp only [List.map_nil, List.flatten_nil, readThree, this]
      simp
  | cons l ls ih =>
    cases n with
    | zero => simp [readThree]
    | succ n =>
      have e : ((l :: ls).map fun l => f l ++ ['\n']).flatten = f l ++ ('\n' :: (ls.map fun l => f l ++ ['\n']).flatten) := by simp
      have hb := fgetsBuf_line (buf := []) (rest := (ls.map fun l => f l ++ ['\n']).flatten) (h l (by simp)).1 (h l (by simp)).2
      rw [e, readThree, hb]
      simp only [hg]
      rw [ih fun x hx => h x (by simp [hx])]
      by_cases hn : ls.length < n
      · rw [if_pos hn, if_pos (by simpa using hn)]; rfl
      · rw [if_neg hn, if_neg (by simpa using hn)]; rfl

/-! ### Particles -/

theorem readParticle_text (par : List ℝ) (T : List Char) {a : List Char} (ha : ∀ c ∈ a, isSpaceC c = true) :
    ∃ a' : List Char, (∀ c ∈ a', isSpaceC c = true) ∧
      readParticle par.length (a ++ (particleText par ++ T)) = .ok (par.map rd6, a' ++ T) := by
  induction par generalizing a with
  | nil =>
    refine ⟨a ++ ['\n'], ?_, by simp [readParticle, particleText]⟩
    intro c hc
    rcases List.mem_append.1 hc with hc | hc
    · exact ha c hc
    · rw [List.mem_singleton.1 hc]; decide
  | cons x par ih =>
    obtain ⟨a', h1, h2⟩ := ih (a := [' ']) (by decide)
    refine ⟨a', h1, ?_⟩
    have e : a ++ (particleText (x :: par) ++ T) = a ++ (fmt6 x ++ ' ' :: (particleText par ++ T)) := by
      simp [particleText]
    rw [e, List.length_cons, readParticle, scanLf_fmt6_ws x ha (.inr ⟨_, rfl⟩)]
    simp only
    rw [List.singleton_append] at h2
    rw [h2]
    rfl

theorem readParticle_eof {n : ℕ} (hn : 0 < n) {a : List Char} (ha : ∀ c ∈ a, isSpaceC c = true) :
    readParticle n a = .exit := by
  obtain ⟨n, rfl⟩ : ∃ k, n = k + 1 := ⟨n - 1, by omega⟩
  have hs : skipSpace a = [] := by
    have := skipSpace_append (s := []) ha
    simpa [skipSpace] using this
  have : scanLf a = none := by
    unfold scanLf
    simp [hs, takeSign, takeFrac]
  rw [readParticle, this]

theorem readParticles_text {np : ℕ} (ps : List (List ℝ)) (h : ∀ p ∈ ps, p.length = np) (hnp : 0 < np) (k : ℕ) {a : List Char}
    (ha : ∀ c ∈ a, isSpaceC c = true) :
    readParticles np k (a ++ (ps.map particleText).flatten) =
      if ps.length < k then .exit else .ok ((ps.take k).map fun p => p.map rd6) := by
  induction ps generalizing k a with
  | nil =>
    cases k with
    | zero => rfl
    | succ k =>
      rw [readParticles, List.map_nil, List.flatten_nil, List.append_nil, readParticle_eof hnp ha]
      simp
  | cons p ps ih =>
    cases k with
    | zero => rfl
    | succ k =>
      have hp := h p (by simp)
      obtain ⟨a', h1, h2⟩ := readParticle_text p (ps.map particleText).flatten ha
      rw [hp] at h2
      rw [readParticles, List.map_cons, List.flatten_cons, h2]
      simp only [Res.ok_bind]
      rw [ih (fun q hq => h q (by simp [hq])) k h1]
      by_cases hn : ps.length < k
      · rw [if_pos hn, if_pos (by simpa using hn)]; rfl
      · rw [if_neg hn, if_neg (by simpa using hn)]; rfl

/-! ### Six decimals -/

theorem micro_rd6 (x : ℝ) : micro (rd6 x) = micro x := by
  have h : |rd6 x| = (micro x : ℝ) / 10 ^ 6 := by
    have h0 : (0 : ℝ) ≤ (micro x : ℝ) / 10 ^ 6 := by positivity
    unfold rd6
    split
    · rw [abs_neg, abs_of_nonneg h0]
    · exact abs_of_nonneg h0
  conv_lhs => rw [micro, h]
  rw [div_mul_cancel₀ _ (by norm_num), Nat.floor_eq_iff (by positivity)]
  constructor <;> linarith

/-- Printing again changes nothing. -/
theorem rd6_idem (x : ℝ) : rd6 (rd6 x) = rd6 x := by
  have hm := micro_rd6 x
  have h0 : (0 : ℝ) ≤ (micro x : ℝ) / 10 ^ 6 := by positivity
  conv_lhs => rw [rd6, hm]
  by_cases hx : x < 0
  · have e : rd6 x = -((micro x : ℝ) / 10 ^ 6) := by unfold rd6; rw [if_pos hx]
    rw [e]
    split
    · rfl
    · linarith
  · have e : rd6 x = (micro x : ℝ) / 10 ^ 6 := by unfold rd6; rw [if_neg hx]
    rw [e, if_neg (by linarith)]

theorem rd6_mono {x y : ℝ} (h : x ≤ y) : rd6 x ≤ rd6 y := by
  have hx : (0 : ℝ) ≤ (micro x : ℝ) / 10 ^ 6 := by positivity
  have hy : (0 : ℝ) ≤ (micro y : ℝ) / 10 ^ 6 := by positivity
  have key : ∀ {u v : ℝ}, |u| ≤ |v| → (micro u : ℝ) / 10 ^ 6 ≤ (micro v : ℝ) / 10 ^ 6 := by
    intro u v huv
    have : micro u ≤ micro v := Nat.floor_le_floor (by linarith)
    have : (micro u : ℝ) ≤ micro v := by exact_mod_cast this
    linarith
  unfold rd6
  by_cases h1 : x < 0
  · rw [if_pos h1]
    by_cases h2 : y < 0
    · rw [if_pos h2]
      have := key (u := y) (v := x) (by rw [abs_of_neg h1, abs_of_neg h2]; linarith)
      linarith
    · rw [if_neg h2]; linarith
  · rw [if_neg h1, if_neg (by linarith)]
    exact key (by rw [abs_of_nonneg (by linarith), abs_of_nonneg (by linarith)]; exact h)

end Mica
