import Verif.Model.ParNames
import Verif.Proof.Data
import Verif.Proof.LineRange
import Verif.Proof.LineLayout
import Verif.Spec.Priors
import Mathlib.Data.Nat.Digits.Defs

/-!
# Lemmas on the file of parameter names
-/

namespace Mica

/-- `f` is a text form of numbers without white space, which `lf` reads, behind blanks and up to the end of the text or
the next blank, as `rd`. -/
structure ReadsBack (lf : List Char → Option (ℝ × List Char)) (f : ℝ → List Char) (rd : ℝ → ℝ) : Prop where
  word : ∀ x, f x ≠ [] ∧ ∀ c ∈ f x, isSpaceC c = false
  read : ∀ x (a r : List Char), (∀ c ∈ a, c = ' ') → (r = [] ∨ ∃ s, r = ' ' :: s) →
    lf (a ++ (f x ++ r)) = some (rd x, r)

theorem scanD_fmt (a r : List Char) (z : ℤ) (ha : ∀ c ∈ a, c = ' ') (hr : r = [] ∨ ∃ s, r = ' ' :: s) :
    scanD (a ++ (fmtInt z ++ r)) = some (z, r) := by
  have hdig : ∀ n : ℕ, ∀ c ∈ Nat.toDigits 10 n, c.isDigit = true := fun n c hc =>
    Nat.isDigit_of_mem_toDigits (by norm_num) (by norm_num) hc
  have htd : ∀ n : ℕ, (Nat.toDigits 10 n ++ r).takeWhile Char.isDigit = Nat.toDigits 10 n ∧
      (Nat.toDigits 10 n ++ r).dropWhile Char.isDigit = r := by
    intro n
    rw [List.takeWhile_append_of_pos (by simpa using hdig n), List.dropWhile_append_of_pos (by simpa using hdig n)]
    rcases hr with rfl | ⟨s, rfl⟩ <;> simp
  have hsk : ∀ w : List Char, (∀ c s, w = c :: s → isSpaceC c = false) → skipSpace (a ++ w) = w := by
    intro w hw
    rw [skipSpace_append (fun c hc => by rw [ha c hc]; decide)]
    cases w with
    | nil => rfl
    | cons c s => simp [skipSpace, hw c s rfl]
  unfold fmtInt
  split
  · rename_i hz
    unfold scanD
    rw [List.cons_append, hsk _ (fun c s h => by cases h; decide)]
    change scanDNum true _ = _
    unfold scanDNum
    rw [(htd _).1, (htd _).2, digitsVal_toDigits, if_neg Nat.toDigits_ne_nil, if_pos rfl]
    congr 2; omega
  · rename_i hz
    obtain ⟨c, d, e⟩ := List.exists_cons_of_ne_nil (Nat.toDigits_ne_nil (n := z.natAbs) (b := 10))
    have hc := hdig z.natAbs c (by rw [e]; simp)
    have h1 : c ≠ '-' := by rintro rfl; revert hc; decide
    have h2 : c ≠ '+' := by rintro rfl; revert hc; decide
    have key := htd z.natAbs
    have hv := digitsVal_toDigits z.natAbs
    rw [e] at key hv ⊢
    unfold scanD
    rw [hsk _ (fun x s h => by cases h; exact isDigit_not_space hc)]
    rw [List.cons_append] at key ⊢
    split
    · rename_i heq; exact absurd (List.cons.inj heq).1 h1
    · rename_i heq; exact absurd (List.cons.inj heq).1 h2
    · unfold scanDNum
      rw [key.1, key.2, hv, if_neg (by simp), if_neg (by simp)]
      congr 2; omega

theorem nextWord_word (a w r : List Char) (ha : ∀ c ∈ a, c = ' ') (hw : w ≠ [] ∧ ∀ c ∈ w, isSpaceC c = false) :
    nextWord (a ++ (w ++ ' ' :: r)) = (w, ' ' :: r) := by
  obtain ⟨hw0, hw⟩ := hw
  have hsk : skipSpace (a ++ (w ++ ' ' :: r)) = w ++ ' ' :: r := by
    rw [skipSpace_append (fun c hc => by rw [ha c hc]; decide)]
    obtain ⟨c, s, rfl⟩ := List.exists_cons_of_ne_nil hw0
    simp [skipSpace, hw c (by simp)]
  have hsp : isSpaceC ' ' = true := by decide
  unfold nextWord
  rw [hsk, List.takeWhile_append_of_pos (by simpa using hw), List.dropWhile_append_of_pos (by simpa using hw)]
  simp [hsp]

theorem kindName_word (k : ParKind) : kindName k ≠ [] ∧ ∀ c ∈ kindName k, isSpaceC c = false := by
  have hd : ∀ n (s : List Char), s ≠ [] → (∀ c ∈ s, isSpaceC c = false) →
      Nat.toDigits 10 n ++ s ≠ [] ∧ ∀ c ∈ Nat.toDigits 10 n ++ s, isSpaceC c = false := by
    intro n s h1 h2
    refine ⟨by simp [h1], fun c hc => ?_⟩
    rcases List.mem_append.1 hc with h | h
    · exact isDigit_not_space (Nat.isDigit_of_mem_toDigits (by norm_num) (by norm_num) h)
    · exact h2 c h
  cases k with
  | sysCon => exact ⟨by decide, by decide⟩
  | sigmad => exact ⟨by decide, by decide⟩
  | taud => exact ⟨by decide, by decide⟩
  | sysLine => exact ⟨by decide, by decide⟩
  | amplitude k => exact hd k _ (by decide) (by decide)
  | ratio k => exact hd k _ (by decide) (by decide)
  | centroid k => exact hd k _ (by decide) (by decide)
  | width k => exact hd k _ (by decide) (by decide)

/-- The third column is a word and blanks. -/
theorem kindPrior_word (m : NameMode) (k : ParKind) : ∃ w n, kindPrior m k = w ++ List.replicate n ' ' ∧
    w ≠ [] ∧ ∀ c ∈ w, isSpaceC c = false := by
  have h1 : ∃ w n, "LOGUNI".toList = w ++ List.replicate n ' ' ∧ w ≠ [] ∧ ∀ c ∈ w, isSpaceC c = false :=
    ⟨"LOGUNI".toList, 0, by decide, by decide, by decide⟩
  have h2 : ∃ w n, "UNI   ".toList = w ++ List.replicate n ' ' ∧ w ≠ [] ∧ ∀ c ∈ w, isSpaceC c = false :=
    ⟨"UNI".toList, 3, by decide, by decide, by decide⟩
  have h3 : ∃ w n, "LOG   ".toList = w ++ List.replicate n ' ' ∧ w ≠ [] ∧ ∀ c ∈ w, isSpaceC c = false :=
    ⟨"LOG".toList, 3, by decide, by decide, by decide⟩
  cases k with
  | sysCon => exact h1
  | sysLine => exact h1
  | centroid => exact h2
  | amplitude k =>
    change ∃ w n, (if m = .line true then "UNI   ".toList else "LOG   ".toList) = _ ∧ _
    split
    · exact h2
    · exact h3
  | sigmad => exact h3
  | taud => exact h3
  | ratio => exact h3
  | width => exact h3

theorem blanks_rep (n : ℕ) : ∀ c ∈ List.replicate n ' ', c = ' ' := fun _ h => (List.mem_replicate.1 h).2

theorem toDigits_fmt (i : ℕ) : Nat.toDigits 10 i = fmtInt (i : ℤ) := by
  unfold fmtInt; rw [if_neg (by omega)]; simp

section
variable {lf : List Char → Option (ℝ × List Char)} {fF fE : ℝ → List Char} {rF rE : ℝ → ℝ}
  (hF : ReadsBack lf fF rF) (hE : ReadsBack lf fE rE)
include hF hE

/-- A printed line, read. -/
theorem scan_parLine (m : NameMode) (i : ℕ) (k : ParKind) (e : ParLine) (a : List Char) (ha : ∀ c ∈ a, c = ' ') :
    scanParLine lf (a ++ (Nat.toDigits 10 i ++ ' ' :: (padR 25 (kindName k) ++ ' ' :: (kindPrior m k ++ ' ' ::
      (padL 10 (fF e.lo) ++ ' ' :: (padL 10 (fF e.hi) ++ ' ' :: (padL 4 (fmtInt e.fix) ++ ' ' :: padL 15 (fE e.val)))))))) =
      some ⟨i, rF e.lo, rF e.hi, e.fix, rE e.val⟩ := by
  obtain ⟨w, n, hk, hw⟩ := kindPrior_word m k
  have hb : ∀ (n : ℕ), ∀ c ∈ ' ' :: List.replicate n ' ', c = ' ' := by
    intro n c hc
    rcases List.mem_cons.1 hc with h | h
    · exact h
    · exact blanks_rep n c h
  have hb2 : ∀ (n n' : ℕ), ∀ c ∈ List.replicate n ' ' ++ ' ' :: List.replicate n' ' ', c = ' ' := by
    intro n n' c hc
    rcases List.mem_append.1 hc with h | h
    · exact blanks_rep n c h
    · exact hb n' c h
  unfold scanParLine padR padL
  rw [hk, toDigits_fmt, scanD_fmt a _ i ha (.inr ⟨_, rfl⟩)]
  simp only [Option.bind_some]
  have e1 : ∀ r : List Char, nextWord (' ' :: (kindName k ++ List.replicate (25 - (kindName k).length) ' ' ++ ' ' :: r)) =
      (kindName k, List.replicate (25 - (kindName k).length) ' ' ++ ' ' :: r) := by
    intro r
    cases hn : 25 - (kindName k).length with
    | zero => simpa using nextWord_word [' '] (kindName k) r (by simp) (kindName_word k)
    | succ n =>
      have := nextWord_word [' '] (kindName k) (List.replicate n ' ' ++ ' ' :: r) (by simp) (kindName_word k)
      simpa [List.replicate_succ] using this
  have e2 : ∀ (n1 : ℕ) (r : List Char), nextWord (List.replicate n1 ' ' ++ ' ' :: (w ++ List.replicate n ' ' ++ ' ' :: r)) =
      (w, List.replicate n ' ' ++ ' ' :: r) := by
    intro n1 r
    cases n with
    | zero =>
      have := nextWord_word (List.replicate n1 ' ' ++ [' ']) w r (hb2 n1 0) hw
      simpa using this
    | succ n =>
      have := nextWord_word (List.replicate n1 ' ' ++ [' ']) w (List.replicate n ' ' ++ ' ' :: r) (hb2 n1 0) hw
      simpa [List.replicate_succ] using this
  rw [e1]
  simp only [e2]
  rw [if_neg (kindName_word k).1, if_neg hw.1]
  have r1 := fun r => hF.read e.lo (List.replicate n ' ' ++ ' ' :: List.replicate (10 - (fF e.lo).length) ' ') (' ' :: r)
    (hb2 _ _) (.inr ⟨_, rfl⟩)
  have r2 := fun r => hF.read e.hi (' ' :: List.replicate (10 - (fF e.hi).length) ' ') (' ' :: r) (hb _) (.inr ⟨_, rfl⟩)
  have r3 := fun r => scanD_fmt (' ' :: List.replicate (4 - (fmtInt e.fix).length) ' ') (' ' :: r) e.fix (hb _) (.inr ⟨_, rfl⟩)
  have r4 := hE.read e.val (' ' :: List.replicate (15 - (fE e.val).length) ' ') [] (hb _) (.inl rfl)
  simp only [List.append_assoc, List.cons_append, List.append_nil] at r1 r2 r3 r4 ⊢
  rw [r1]
  simp only [Option.bind_some]
  rw [r2]
  simp only [Option.bind_some]
  rw [r3]
  simp only [Option.bind_some]
  rw [r4]
  rfl

theorem isParLine_parLine (m : NameMode) (i : ℕ) (k : ParKind) (e : ParLine)
    (hs : (parLine fF fE m i k e).length < 254) :
    IsParLine (scanParLine lf) (parLine fF fE m i k e) ⟨i, rF e.lo, rF e.hi, e.fix, rE e.val⟩ := by
  have hdig : ∀ n : ℕ, ∀ c ∈ Nat.toDigits 10 n, c.isDigit = true := fun n c hc =>
    Nat.isDigit_of_mem_toDigits (by norm_num) (by norm_num) hc
  have hns : ∀ {c : Char}, isSpaceC c = false → c ≠ '\n' := by rintro c h rfl; revert h; decide
  obtain ⟨w, n, hk, hw⟩ := kindPrior_word m k
  obtain ⟨c0, d0, e0⟩ := List.exists_cons_of_ne_nil (Nat.toDigits_ne_nil (n := i) (b := 10))
  have hc0 := hdig i c0 (by rw [e0]; simp)
  refine ⟨?_, hs, ?_, ?_⟩
  · intro h
    have hfi : ∀ c ∈ fmtInt e.fix, c ≠ '\n' := by
      intro c hc
      unfold fmtInt at hc
      split at hc
      · rcases List.mem_cons.1 hc with rfl | hc
        · decide
        · exact hns (isDigit_not_space (hdig _ c hc))
      · exact hns (isDigit_not_space (hdig _ c hc))
    simp only [parLine, padL, padR, hk, List.mem_append, List.mem_cons, List.mem_replicate] at h
    have hne : ¬ ('\n' = ' ') := by decide
    simp only [hne, and_false, false_or, or_false] at h
    rcases h with h | h | h | h | h | h | h
    · exact hns (isDigit_not_space (hdig _ _ h)) rfl
    · exact hns ((kindName_word k).2 _ h) rfl
    · exact hns (hw.2 _ h) rfl
    · exact hns ((hF.word _).2 _ h) rfl
    · exact hns ((hF.word _).2 _ h) rfl
    · exact hfi _ h rfl
    · exact hns ((hE.word _).2 _ h) rfl
  · refine ⟨List.replicate (2 - (Nat.toDigits 10 i).length) ' ', c0, d0 ++ ' ' :: (padR 25 (kindName k) ++ ' ' :: (kindPrior m k ++ ' ' ::
        (padL 10 (fF e.lo) ++ ' ' :: (padL 10 (fF e.hi) ++ ' ' :: (padL 4 (fmtInt e.fix) ++ ' ' :: padL 15 (fE e.val)))))),
        ?_, fun x hx => by rw [blanks_rep _ x hx]; decide, isDigit_not_space hc0, by rintro rfl; revert hc0; decide⟩
    · unfold parLine
      rw [show padL 2 (Nat.toDigits 10 i) = List.replicate (2 - (Nat.toDigits 10 i).length) ' ' ++ (c0 :: d0) by
        rw [← e0]; rfl, List.append_assoc]
      rfl
  · -- trimmed
    have key := scan_parLine hF hE m i k e [] (by simp)
    rw [List.nil_append] at key
    rw [← key]
    congr 1
    obtain ⟨hE0, hE1⟩ := hE.word e.val
    unfold trimC
    have h1 : skipSpace (parLine fF fE m i k e ++ ['\n']) = Nat.toDigits 10 i ++ ' ' :: (padR 25 (kindName k) ++ ' ' ::
        (kindPrior m k ++ ' ' :: (padL 10 (fF e.lo) ++ ' ' :: (padL 10 (fF e.hi) ++ ' ' :: (padL 4 (fmtInt e.fix) ++
        ' ' :: (padL 15 (fE e.val) ++ ['\n'])))))) := by
      unfold parLine
      rw [padL, List.append_assoc, List.append_assoc,
        skipSpace_append (fun c hc => by rw [blanks_rep _ c hc]; decide), e0]
      simp [skipSpace, isDigit_not_space hc0]
    rw [h1]
    obtain ⟨z, hz⟩ : ∃ z, z = fE e.val := ⟨_, rfl⟩
    rw [← hz] at hE0 hE1 ⊢
    obtain ⟨p, q, rfl⟩ : ∃ p q, z = p ++ [q] := ⟨z.dropLast, z.getLast hE0, (List.dropLast_append_getLast hE0).symm⟩
    have hq : isSpaceC q = false := hE1 q (by simp)
    have hnl : isSpaceC '\n' = true := by decide
    simp [padL, hq, hnl]

end

theorem parKinds_length (c : LineCfg) (m : NameMode) :
    (parKinds m c.numVar c.numLine c.ng).length = c.numParams := by
  obtain ⟨q, hq⟩ := c.numVar_mod
  have h1 : (c.numVar + 2) / 3 = q := by omega
  have h2 : (c.numLine + 3 * c.ng) / (1 + 3 * c.ng) = c.nblocks := by
    rw [c.numLine_eq]
    unfold LineCfg.blk
    rw [Nat.add_comm, Nat.add_mul_div_left _ _ (by omega), Nat.div_eq_of_lt (by omega)]; omega
  unfold parKinds LineCfg.numParams
  rw [h1, h2, c.numLine_eq, hq]
  simp [LineCfg.blk, List.length_flatMap, Nat.mul_comm, Nat.add_comm]

/-- The number which `%.6f` prints. -/
noncomputable def rd6 (x : ℝ) : ℝ := if x < 0 then -((micro x : ℝ) / 10 ^ 6) else (micro x : ℝ) / 10 ^ 6

/-- It is the number given, to six decimals. -/
theorem rd6_near (x : ℝ) : |rd6 x - x| ≤ 1 / 2 / 10 ^ 6 := by
  have h0 : (0 : ℝ) ≤ |x| * 10 ^ 6 + 1 / 2 := by positivity
  have h1 : (micro x : ℝ) ≤ |x| * 10 ^ 6 + 1 / 2 := Nat.floor_le h0
  have h2 : |x| * 10 ^ 6 + 1 / 2 < micro x + 1 := Nat.lt_floor_add_one _
  unfold rd6
  rw [abs_le]
  split
  · rename_i h
    rw [abs_of_neg h] at h1 h2
    constructor <;> linarith
  · rename_i h
    rw [abs_of_nonneg (not_lt.1 h)] at h1 h2
    constructor <;> linarith

theorem digitsVal_zeros (k : ℕ) (d : List Char) : digitsVal (List.replicate k '0' ++ d) = digitsVal d := by
  induction k with
  | zero => rfl
  | succ k ih =>
    rw [List.replicate_succ, List.cons_append, ← ih]
    rfl

/-- `%.6f` writes a word which the decimal reader understands. -/
theorem readsBack_fmt6 : ReadsBack scanDec fmt6 rd6 := by
  have hdig : ∀ n : ℕ, ∀ c ∈ Nat.toDigits 10 n, c.isDigit = true := fun n c hc =>
    Nat.isDigit_of_mem_toDigits (by norm_num) (by norm_num) hc
  have hfrac : ∀ x, ∀ c ∈ List.replicate (6 - (Nat.toDigits 10 (micro x % 10 ^ 6)).length) '0' ++
      Nat.toDigits 10 (micro x % 10 ^ 6), c.isDigit = true := by
    intro x c hc
    rcases List.mem_append.1 hc with h | h
    · rw [List.eq_of_mem_replicate h]; decide
    · exact hdig _ c h
  have hlen : ∀ x, (List.replicate (6 - (Nat.toDigits 10 (micro x % 10 ^ 6)).length) '0' ++
      Nat.toDigits 10 (micro x % 10 ^ 6)).length = 6 := by
    intro x
    have := Nat.toDigits_length 10 (micro x % 10 ^ 6) 6 (by norm_num) (Nat.mod_lt _ (by norm_num))
    rw [List.length_append, List.length_replicate]; omega
  have hnum : ∀ x r, (r = [] ∨ ∃ s, r = ' ' :: s) → scanDecNum ((Nat.toDigits 10 (micro x / 10 ^ 6) ++ '.' ::
      (List.replicate (6 - (Nat.toDigits 10 (micro x % 10 ^ 6)).length) '0' ++ Nat.toDigits 10 (micro x % 10 ^ 6))) ++ r) =
      some ((micro x : ℝ) / 10 ^ 6, r) := by
    intro x r hr
    have hl := hlen x
    have hf := hfrac x
    have hv := digitsVal_zeros (6 - (Nat.toDigits 10 (micro x % 10 ^ 6)).length) (Nat.toDigits 10 (micro x % 10 ^ 6))
    rw [digitsVal_toDigits] at hv
    generalize List.replicate (6 - (Nat.toDigits 10 (micro x % 10 ^ 6)).length) '0' ++
      Nat.toDigits 10 (micro x % 10 ^ 6) = fr at hl hf hv ⊢
    rw [List.append_assoc, List.cons_append]
    have e1 : (Nat.toDigits 10 (micro x / 10 ^ 6) ++ '.' :: (fr ++ r)).takeWhile Char.isDigit =
        Nat.toDigits 10 (micro x / 10 ^ 6) := by
      rw [List.takeWhile_append_of_pos (by simpa using hdig _)]
      rw [List.takeWhile_cons_of_neg (by decide), List.append_nil]
    have e2 : (Nat.toDigits 10 (micro x / 10 ^ 6) ++ '.' :: (fr ++ r)).dropWhile Char.isDigit = '.' :: (fr ++ r) := by
      rw [List.dropWhile_append_of_pos (by simpa using hdig _), List.dropWhile_cons_of_neg (by decide)]
    have e3 : (fr ++ r).takeWhile Char.isDigit = fr := by
      rw [List.takeWhile_append_of_pos (by simpa using hf)]
      rcases hr with rfl | ⟨s, rfl⟩ <;> simp
    have e4 : (fr ++ r).dropWhile Char.isDigit = r := by
      rw [List.dropWhile_append_of_pos (by simpa using hf)]
      rcases hr with rfl | ⟨s, rfl⟩ <;> simp
    unfold scanDecNum
    rw [e1, e2]
    change some ((digitsVal (Nat.toDigits 10 (micro x / 10 ^ 6)) : ℝ) + (digitsVal ((fr ++ r).takeWhile Char.isDigit) : ℝ) /
      10 ^ ((fr ++ r).takeWhile Char.isDigit).length, (fr ++ r).dropWhile Char.isDigit) = _
    rw [e3, e4, hl, hv, digitsVal_toDigits]
    congr 2
    have := Nat.div_add_mod (micro x) (10 ^ 6)
    have h2 : (micro x : ℝ) = 10 ^ 6 * (micro x / 10 ^ 6 : ℕ) + (micro x % 10 ^ 6 : ℕ) := by exact_mod_cast this.symm
    rw [h2]
    field_simp
  have hsp : ∀ c : Char, c.isDigit = true → isSpaceC c = false := fun c h => isDigit_not_space h
  have hword : ∀ x, fmt6 x ≠ [] ∧ ∀ c ∈ fmt6 x, isSpaceC c = false := by
    intro x
    constructor
    · simp [fmt6]
    · intro c hc
      unfold fmt6 at hc
      rcases List.mem_append.1 hc with h | h
      · split at h
        · rw [List.mem_singleton.1 h]; decide
        · simp at h
      · rcases List.mem_append.1 h with h | h
        · exact hsp c (hdig _ c h)
        · rcases List.mem_cons.1 h with rfl | h
          · decide
          · exact hsp c (hfrac x c h)
  refine ⟨hword, fun x a r ha hr => ?_⟩
  have hsk : skipSpace (a ++ (fmt6 x ++ r)) = fmt6 x ++ r := by
    rw [skipSpace_append (fun c hc => by rw [ha c hc]; decide)]
    obtain ⟨c, s, e⟩ := List.exists_cons_of_ne_nil (hword x).1
    have := (hword x).2 c (by rw [e]; simp)
    rw [e]
    simp [skipSpace, this]
  unfold scanDec
  rw [hsk]
  unfold fmt6 rd6
  by_cases hx : x < 0
  · simp only [hx, if_true]
    rw [List.append_assoc, if_pos (by rfl)]
    change (scanDecNum (_ ++ r)).map _ = _
    rw [hnum x r hr]
    rfl
  · simp only [hx, if_false]
    rw [List.nil_append, if_neg, hnum x r hr]
    obtain ⟨c, s, e⟩ := List.exists_cons_of_ne_nil (Nat.toDigits_ne_nil (n := micro x / 10 ^ 6) (b := 10))
    have hc := hdig _ c (by rw [e]; simp)
    rw [e]
    rintro h
    change c = '-' at h
    subst h
    revert hc; decide

theorem fmt6_length (x : ℝ) (n : ℕ) (hx : |x| < 10 ^ n) : (fmt6 x).length ≤ n + 9 := by
  have hf := Nat.toDigits_length 10 (micro x % 10 ^ 6) 6 (by norm_num) (Nat.mod_lt _ (by norm_num))
  have hm : micro x / 10 ^ 6 < 10 ^ (n + 1) := by
    have h1 : micro x < 10 ^ (n + 1) * 10 ^ 6 := by
      unfold micro
      rw [Nat.floor_lt (by positivity)]
      push_cast
      have : (1 : ℝ) ≤ 10 ^ n := one_le_pow₀ (by norm_num)
      rw [pow_succ (10 : ℝ) n]
      nlinarith
    exact Nat.div_lt_of_lt_mul (by rw [Nat.mul_comm]; exact h1)
  have hi := Nat.toDigits_length 10 _ (n + 1) (by omega) hm
  unfold fmt6
  rw [List.length_append, List.length_append, List.length_cons, List.length_append, List.length_replicate]
  have : (if x < 0 then ['-'] else []).length ≤ 1 := by split <;> simp
  omega

theorem padL_length (n : ℕ) (s : List Char) : (padL n s).length = max n s.length := by
  unfold padL; rw [List.length_append, List.length_replicate]; omega

theorem padR_length (n : ℕ) (s : List Char) : (padR n s).length = max n s.length := by
  unfold padR; rw [List.length_append, List.length_replicate]; omega

theorem toDigits_ten (n : ℕ) (h : n < 2 ^ 32) : (Nat.toDigits 10 n).length ≤ 10 :=
  Nat.toDigits_length 10 n 10 (by norm_num) (by omega)

/-- The component of a kind of parameter. -/
def ParKind.no : ParKind → ℕ
  | .amplitude k | .ratio k | .centroid k | .width k => k
  | _ => 0

theorem kindName_length (k : ParKind) (h : k.no < 2 ^ 32) : (kindName k).length ≤ 34 := by
  have key : ∀ (n : ℕ) (w : List Char), n < 2 ^ 32 → w.length ≤ 24 → (Nat.toDigits 10 n ++ w).length ≤ 34 := by
    intro n w hn hw
    have := toDigits_ten _ hn
    rw [List.length_append]
    omega
  cases k
  · exact (by decide : "sys_err_con".toList.length ≤ 34)
  · exact (by decide : "sigmad".toList.length ≤ 34)
  · exact (by decide : "taud".toList.length ≤ 34)
  · exact (by decide : "sys_err_line".toList.length ≤ 34)
  · exact key _ _ h (by decide)
  · exact key _ _ h (by decide)
  · exact key _ _ h (by decide)
  · exact key _ _ h (by decide)

theorem kindPrior_length (m : NameMode) (k : ParKind) : (kindPrior m k).length = 6 := by
  cases k <;> simp only [kindPrior] <;> (try split) <;> rfl

theorem parKinds_no (m : NameMode) (nv nl ng : ℕ) : ∀ k ∈ parKinds m nv nl ng, k.no ≤ ng := by
  intro k hk
  unfold parKinds at hk
  rcases List.mem_append.1 hk with h | h
  · obtain ⟨_, _, h⟩ := List.mem_flatMap.1 h
    simp at h
    rcases h with rfl | rfl | rfl <;> simp [ParKind.no]
  · obtain ⟨_, _, h⟩ := List.mem_flatMap.1 h
    rcases List.mem_cons.1 h with rfl | h
    · simp [ParKind.no]
    · obtain ⟨j, hj, h⟩ := List.mem_flatMap.1 h
      have hj := List.mem_range.1 hj
      have ha : (ampKind m j).no = j := by
        unfold ampKind
        split
        · split <;> rfl
        · rfl
      simp at h
      rcases h with rfl | rfl | rfl
      · omega
      · simp only [ParKind.no]; omega
      · simp only [ParKind.no]; omega

/-- Lines fit the buffer. -/
theorem parLine_length (fE : ℝ → List Char) (m : NameMode) (i : ℕ) (k : ParKind) (e : ParLine) (hi : i < 2 ^ 32)
    (hk : k.no < 2 ^ 32) (hlo : |e.lo| < 10 ^ 50) (hhi : |e.hi| < 10 ^ 50) (hfix : e.fix.natAbs < 2 ^ 32)
    (hE : (fE e.val).length ≤ 14) : (parLine fmt6 fE m i k e).length < 254 := by
  have h1 := toDigits_ten i hi
  have h2 := kindName_length k hk
  have h3 := kindPrior_length m k
  have h4 := fmt6_length _ 50 hlo
  have h5 := fmt6_length _ 50 hhi
  have h6 : (fmtInt e.fix).length ≤ 11 := by
    have := toDigits_ten _ hfix
    unfold fmtInt
    split
    · rw [List.length_cons]; omega
    · omega
  unfold parLine
  simp only [List.length_append, List.length_cons, padL_length, padR_length]
  omega

end Mica
