import Verif.Model.PyCols
import Verif.Proof.ParNames
import Verif.Props.ParNames

/-!
Steps towards the names of the columns of the posterior sample.
-/

namespace Mica

/-! ### Reading the names -/

theorem textRows_line (cur l s : List Char) (h : '\n' ∉ l) : textRows cur (l ++ '\n' :: s) = (cur ++ l) :: textRows [] s := by
  induction l generalizing cur with
  | nil => simp [textRows]
  | cons c l ih =>
    simp only [List.mem_cons, not_or] at h
    rw [List.cons_append, textRows, if_neg (fun e => h.1 e.symm), ih _ h.2]
    simp

theorem textRows_flatMap (ls : List (List Char)) (h : ∀ l ∈ ls, '\n' ∉ l) : textRows [] (ls.flatMap (· ++ ['\n'])) = ls := by
  induction ls with
  | nil => rfl
  | cons l ls ih =>
    rw [List.flatMap_cons, List.append_assoc, List.singleton_append, textRows_line _ _ _ (h l (by simp)),
      ih fun x hx => h x (by simp [hx]), List.nil_append]

theorem toDigits_word (i : ℕ) : Nat.toDigits 10 i ≠ [] ∧ ∀ c ∈ Nat.toDigits 10 i, isSpaceC c = false :=
  ⟨Nat.toDigits_ne_nil, fun _ hc => isDigit_not_space (Nat.isDigit_of_mem_toDigits (by norm_num) (by norm_num) hc)⟩

/-- Text forms of numbers without white space. -/
def WordForm (f : ℝ → List Char) : Prop := ∀ x, f x ≠ [] ∧ ∀ c ∈ f x, isSpaceC c = false

theorem parLine_no_nl {fF fE : ℝ → List Char} (hF : WordForm fF) (hE : WordForm fE) (m : NameMode) (i : ℕ) (k : ParKind) (e : ParLine) :
    '\n' ∉ parLine fF fE m i k e := by
  have hdig : ∀ n : ℕ, ∀ c ∈ Nat.toDigits 10 n, c.isDigit = true := fun n c hc =>
    Nat.isDigit_of_mem_toDigits (by norm_num) (by norm_num) hc
  have hns : ∀ {c : Char}, isSpaceC c = false → c ≠ '\n' := by rintro c h rfl; revert h; decide
  obtain ⟨w, n, hk, hw⟩ := kindPrior_word m k
  intro h
  have hfi : ∀ c ∈ fmtInt e.fix, c ≠ '\n' := by
    intro c hc
    unfold fmtInt at hc
    split at hc
    · rcases List.mem_cons.1 hc with rfl | hc
      · decide
      · exact hns (isDigit_not_space (hdig _ c hc))
    · exact hns (isDigit_not_space (hdig _ c hc))
  simp only [parLine, padL, padR, hk, List.mem_append, List.mem_cons, List.mem_replicate] at h
  have hne : ¬ ('\n' = ' ') := by decide
  simp only [hne, and_false, false_or, or_false] at h
  rcases h with h | h | h | h | h | h | h
  · exact hns (isDigit_not_space (hdig _ _ h)) rfl
  · exact hns ((kindName_word k).2 _ h) rfl
  · exact hns (hw.2 _ h) rfl
  · exact hns ((hF _).2 _ h) rfl
  · exact hns ((hF _).2 _ h) rfl
  · exact hfi _ h rfl
  · exact hns ((hE _).2 _ h) rfl

theorem parLine_second (fF fE : ℝ → List Char) (m : NameMode) (i : ℕ) (k : ParKind) (e : ParLine) :
    (nextWord (nextWord (parLine fF fE m i k e)).2).1 = kindName k := by
  unfold parLine
  have h1 := fun r => nextWord_word (List.replicate (2 - (Nat.toDigits 10 i).length) ' ') (Nat.toDigits 10 i) r (blanks_rep _) (toDigits_word i)
  rw [padL, List.append_assoc, h1]
  simp only
  unfold padR
  generalize kindPrior m k ++ _ = r
  cases hn : 25 - (kindName k).length with
  | zero =>
    have := nextWord_word [' '] (kindName k) r (by simp) (kindName_word k)
    simpa using congrArg Prod.fst this
  | succ n =>
    have := nextWord_word [' '] (kindName k) (List.replicate n ' ' ++ ' ' :: r) (by simp) (kindName_word k)
    simpa [List.replicate_succ] using congrArg Prod.fst this

theorem nameCol_file {fF fE : ℝ → List Char} (hF : WordForm fF) (hE : WordForm fE) (m : NameMode) (nv nl ng : ℕ) (t : ParTab) :
    nameCol (parNameFile fF fE m nv nl ng t) = (parKinds m nv nl ng).map kindName := by
  unfold nameCol parNameFile
  rw [textRows_flatMap]
  · rw [List.filter_eq_self.2]
    · unfold parNameLines
      apply List.ext_getElem
      · simp
      · intro n h1 h2
        simp [parLine_second]
    · intro l hl
      unfold parNameLines at hl
      obtain ⟨n, hn, rfl⟩ := List.mem_iff_getElem.1 hl
      simp [parLine]
  · intro l hl
    unfold parNameLines at hl
    obtain ⟨n, hn, rfl⟩ := List.mem_iff_getElem.1 hl
    simp only [List.getElem_mapIdx]
    exact parLine_no_nl hF hE _ _ _ _

/-! ### Names are different -/

/-- The number in a name. -/
def kindPre : ParKind → List Char
  | .amplitude k | .ratio k | .centroid k | .width k => Nat.toDigits 10 k
  | _ => []

/-- What is behind it. -/
def kindSuf : ParKind → List Char
  | .sysCon => "sys_err_con".toList
  | .sigmad => "sigmad".toList
  | .taud => "taud".toList
  | .sysLine => "sys_err_line".toList
  | .amplitude _ => "-th_component_amplitude".toList
  | .ratio _ => "-th_component_resp_ratio".toList
  | .centroid _ => "-th_component_centroid".toList
  | .width _ => "-th_component_sigma".toList

theorem kindName_split (k : ParKind) : (kindName k).takeWhile Char.isDigit = kindPre k ∧ (kindName k).dropWhile Char.isDigit = kindSuf k := by
  have hd : ∀ n : ℕ, ∀ c ∈ Nat.toDigits 10 n, c.isDigit = true := fun n c hc =>
    Nat.isDigit_of_mem_toDigits (by norm_num) (by norm_num) hc
  have key : ∀ (n : ℕ) (s : List Char), s.head?.all (fun c => !c.isDigit) = true →
      (Nat.toDigits 10 n ++ s).takeWhile Char.isDigit = Nat.toDigits 10 n ∧ (Nat.toDigits 10 n ++ s).dropWhile Char.isDigit = s := by
    intro n s hs
    rw [List.takeWhile_append_of_pos (hd n), List.dropWhile_append_of_pos (hd n)]
    cases s with
    | nil => simp
    | cons c s =>
      have : c.isDigit = false := by simpa using hs
      simp [this]
  cases k with
  | sysCon => decide
  | sigmad => decide
  | taud => decide
  | sysLine => decide
  | amplitude k => exact key k _ (by decide)
  | ratio k => exact key k _ (by decide)
  | centroid k => exact key k _ (by decide)
  | width k => exact key k _ (by decide)

theorem toDigits_inj {a b : ℕ} (h : Nat.toDigits 10 a = Nat.toDigits 10 b) : a = b := by
  rw [← digitsVal_toDigits a, h, digitsVal_toDigits]

/-- The lengths of the second parts tell the kinds apart. -/
def kindCode : ParKind → ℕ
  | .sysCon => 11
  | .sigmad => 6
  | .taud => 4
  | .sysLine => 12
  | .amplitude _ => 23
  | .ratio _ => 24
  | .centroid _ => 22
  | .width _ => 19

theorem kindSuf_length (k : ParKind) : (kindSuf k).length = kindCode k := by
  cases k with
  | sysCon => show "sys_err_con".toList.length = 11; decide +kernel
  | sigmad => show "sigmad".toList.length = 6; decide +kernel
  | taud => show "taud".toList.length = 4; decide +kernel
  | sysLine => show "sys_err_line".toList.length = 12; decide +kernel
  | amplitude _ => show "-th_component_amplitude".toList.length = 23; decide +kernel
  | ratio _ => show "-th_component_resp_ratio".toList.length = 24; decide +kernel
  | centroid _ => show "-th_component_centroid".toList.length = 22; decide +kernel
  | width _ => show "-th_component_sigma".toList.length = 19; decide +kernel

theorem kindName_inj {a b : ParKind} (h : kindName a = kindName b) : a = b := by
  have h1 := (kindName_split a).1
  rw [h, (kindName_split b).1] at h1
  have h2 := kindSuf_length a
  rw [← (kindName_split a).2, h, (kindName_split b).2, kindSuf_length] at h2
  have h3 : ∀ {a b : ℕ}, Nat.toDigits 10 a = Nat.toDigits 10 b → b = a := fun h => (toDigits_inj h).symm
  cases a <;> cases b <;> simp only [kindCode, Nat.reduceEqDiff] at h2 <;>
    simp only [kindPre] at h1 <;> first | (rw [h3 h1]) | rfl

/-! ### Where a name is -/

theorem whereEq_append (s : List Char) (n : ℕ) (a b : List (List Char)) :
    whereEq s n (a ++ b) = whereEq s n a ++ whereEq s (n + a.length) b := by
  induction a generalizing n with
  | nil => simp [whereEq]
  | cons x a ih =>
    rw [List.cons_append, whereEq, whereEq, ih]
    split <;> simp [Nat.add_assoc, Nat.add_comm 1]

theorem whereEq_none (s : List Char) (n : ℕ) (a : List (List Char)) (h : s ∉ a) : whereEq s n a = [] := by
  induction a generalizing n with
  | nil => rfl
  | cons x a ih =>
    simp only [List.mem_cons, not_or] at h
    rw [whereEq, if_neg (fun e => h.1 e.symm), ih _ h.2]

theorem whereEq_flatMap (s : List Char) (f : ℕ → List (List Char)) (L p : ℕ) (hL : ∀ t, (f t).length = L)
    (hf : ∀ t n, whereEq s n (f t) = [n + p]) (n0 n : ℕ) :
    whereEq s n0 ((List.range n).flatMap f) = (List.range n).map fun (t : ℕ) => n0 + L * t + p := by
  induction n with
  | zero => rfl
  | succ n ih =>
    have hlen : ((List.range n).flatMap f).length = L * n := by
      simp [List.length_flatMap, hL, Nat.mul_comm]
    rw [List.range_succ, List.flatMap_append, whereEq_append, ih, List.map_append, hlen]
    simp [hf]

/-- One line's names. -/
def blockKinds (m : NameMode) (ng : ℕ) : List ParKind :=
  .sysLine :: (List.range ng).flatMap fun k => [ampKind m k, .centroid k, .width k]

theorem blockKinds_length (m : NameMode) (ng : ℕ) : (blockKinds m ng).length = 1 + 3 * ng := by
  simp [blockKinds, List.length_flatMap, Nat.mul_comm, Nat.add_comm]

theorem ampKind_ne (m : NameMode) (k : ℕ) : ampKind m k ≠ .taud ∧ (∀ j, ampKind m k ≠ .width j) ∧ ampKind m k ≠ .sysLine ∧ ampKind m k ≠ .sysCon := by
  unfold ampKind
  cases m <;> simp
  split <;> simp

theorem blockKinds_where (m : NameMode) (g n : ℕ) :
    whereEq (kindName (.width g)) n ((blockKinds m (g + 1)).map kindName) = [n + 3 * (g + 1)] := by
  have hsplit : blockKinds m (g + 1) = (blockKinds m g ++ [ampKind m g, .centroid g]) ++ [.width g] := by
    simp [blockKinds, List.range_succ, List.flatMap_append]
  rw [hsplit, List.map_append, whereEq_append, whereEq_none]
  · simp [whereEq, blockKinds_length]
    omega
  · intro h
    obtain ⟨k, hk, he⟩ := List.mem_map.1 h
    have := kindName_inj he
    subst this
    rcases List.mem_append.1 hk with hk | hk
    · unfold blockKinds at hk
      simp only [List.mem_cons, reduceCtorEq, false_or, List.mem_flatMap, List.mem_range, List.not_mem_nil, or_false] at hk
      obtain ⟨k, hk, h | h⟩ := hk
      · exact (ampKind_ne m k).2.1 g h.symm
      · injection h with h; omega
    · simp only [List.mem_cons, reduceCtorEq, List.not_mem_nil, or_false] at hk
      exact (ampKind_ne m g).2.1 g hk.symm

/-! ### The loop over the lines -/

theorem map_getD_range' (l : List (List Char)) (a n : ℕ) (b : List (List Char)) (hb : b.length = n)
    (h : ∀ r < n, l.getD (a + r) [] = b.getD r []) (suf : List Char) :
    ((List.range' a n).map fun (j : ℕ) => l.getD j [] ++ suf) = b.map (· ++ suf) := by
  apply List.ext_getElem
  · simp [hb]
  · intro r h1 h2
    simp only [List.length_map, List.length_range'] at h1
    simp only [List.getElem_map, List.getElem_range', Nat.one_mul]
    rw [h r h1, List.getD_eq_getElem _ _ (by omega)]

theorem lineCols_eq (names : List (List Char)) (L n0 : ℕ) (tl : List (List Char)) (htl : tl.length = L)
    (nb : ℕ) (h : ∀ b < nb, ∀ r < L, names.getD (n0 + (L + 1) * b + 1 + r) [] = tl.getD r []) (r i : ℕ) (hr : i + r ≤ nb) :
    lineCols names i (n0 + (L + 1) * i) ((List.range' i r).map fun (b : ℕ) => n0 + (L + 1) * b + L) =
      (List.range' i r).flatMap fun (b : ℕ) => ("line_err_".toList ++ Nat.toDigits 10 b) ::
        tl.map fun s => s ++ '_' :: Nat.toDigits 10 b := by
  induction r generalizing i with
  | zero => rfl
  | succ r ih =>
    rw [List.range'_succ, List.map_cons, lineCols, List.flatMap_cons]
    have h1 := ih (i + 1) (by omega)
    rw [show n0 + (L + 1) * i + L + 1 = n0 + (L + 1) * (i + 1) by ring, h1,
      show n0 + (L + 1) * i + L - (n0 + (L + 1) * i) = L by omega,
      map_getD_range' names _ L tl htl (h i (by omega))]

/-- Label of a column. -/
def colBase : ParKind → List Char
  | .sysCon => "con_err".toList
  | .sysLine => "line_err".toList
  | k => kindName k

/-- Label of a column with the number of its data set or light curve. -/
def colLabel (e : ParKind × ℕ) : List Char := colBase e.1 ++ '_' :: Nat.toDigits 10 e.2

/-- What the columns are. -/
def colKinds (m : NameMode) (q nb ng : ℕ) : List (ParKind × ℕ) :=
  ((List.range q).flatMap fun i => [(.sysCon, i), (.sigmad, i), (.taud, i)]) ++
  (List.range nb).flatMap fun b => (blockKinds m ng).map fun k => (k, b)

theorem colNames_eq {fF fE : ℝ → List Char} (hF : WordForm fF) (hE : WordForm fE) (m : NameMode) (q nb g : ℕ) (t : ParTab) :
    colNames (g + 1) (parNameFile fF fE m (3 * q) ((1 + 3 * (g + 1)) * nb) (g + 1) t) = (colKinds m q nb (g + 1)).map colLabel := by
  have hk : parKinds m (3 * q) ((1 + 3 * (g + 1)) * nb) (g + 1) =
      ((List.range q).flatMap fun _ => [.sysCon, .sigmad, .taud]) ++ (List.range nb).flatMap fun _ => blockKinds m (g + 1) := by
    unfold parKinds
    rw [show (3 * q + 2) / 3 = q by omega, Nat.add_comm ((1 + 3 * (g + 1)) * nb), Nat.add_mul_div_left _ _ (by omega),
      Nat.div_eq_of_lt (by omega), Nat.zero_add]
    rfl
  unfold colNames
  rw [nameCol_file hF hE, hk, List.map_append, List.map_flatMap, List.map_flatMap]
  have hA : ((List.range q).flatMap fun _ => ([.sysCon, .sigmad, .taud] : List ParKind).map kindName).length = 3 * q := by
    simp [List.length_flatMap, Nat.mul_comm]
  have hB : ((List.range nb).flatMap fun _ => (blockKinds m (g + 1)).map kindName).length = (1 + 3 * (g + 1)) * nb := by
    simp [List.length_flatMap, blockKinds_length, Nat.mul_comm]
  have htaud : (whereEq "taud".toList 0 (((List.range q).flatMap fun _ => ([.sysCon, .sigmad, .taud] : List ParKind).map kindName) ++
      (List.range nb).flatMap fun _ => (blockKinds m (g + 1)).map kindName)).length = q := by
    have hw : ∀ n, whereEq "taud".toList n (([.sysCon, .sigmad, .taud] : List ParKind).map kindName) = [n + 2] := by
      intro n
      have h1 : kindName .sysCon ≠ "taud".toList := fun h => absurd (kindName_inj (b := .taud) h) (by simp)
      have h2 : kindName .sigmad ≠ "taud".toList := fun h => absurd (kindName_inj (b := .taud) h) (by simp)
      have h3 : kindName .taud = "taud".toList := rfl
      rw [List.map_cons, List.map_cons, List.map_cons, List.map_nil, whereEq, if_neg h1, whereEq, if_neg h2, whereEq, if_pos h3, whereEq]
    rw [whereEq_append, whereEq_flatMap _ _ 3 2 (fun _ => by simp) (fun _ n => hw n), whereEq_none]
    · simp
    · intro h
      obtain ⟨b, _, h⟩ := List.mem_flatMap.1 h
      obtain ⟨k, hk, he⟩ := List.mem_map.1 h
      have : k = .taud := kindName_inj he
      subst this
      simp only [blockKinds, List.mem_cons, reduceCtorEq, false_or, List.mem_flatMap, List.mem_range, List.not_mem_nil, or_false] at hk
      obtain ⟨k, -, h⟩ := hk
      exact (ampKind_ne m k).1 h.symm
  have hsig : whereEq (Nat.toDigits 10 (g + 1 - 1) ++ "-th_component_sigma".toList) 0
      (((List.range q).flatMap fun _ => ([.sysCon, .sigmad, .taud] : List ParKind).map kindName) ++
      (List.range nb).flatMap fun _ => (blockKinds m (g + 1)).map kindName) =
      (List.range nb).map fun (b : ℕ) => 3 * q + (1 + 3 * (g + 1)) * b + 3 * (g + 1) := by
    rw [whereEq_append, hA, whereEq_none, List.nil_append, Nat.zero_add]
    · exact whereEq_flatMap _ _ _ _ (fun _ => by rw [List.length_map, blockKinds_length]) (fun _ n => blockKinds_where m g n) _ _
    · intro h
      obtain ⟨b, _, h⟩ := List.mem_flatMap.1 h
      obtain ⟨k, hk, he⟩ := List.mem_map.1 h
      have : k = .width g := kindName_inj he
      subst this
      simp at hk
  simp only [htaud, hsig]
  unfold colKinds
  rw [List.map_append, List.map_flatMap, List.map_flatMap]
  congr 1
  have := lineCols_eq (((List.range q).flatMap fun _ => ([.sysCon, .sigmad, .taud] : List ParKind).map kindName) ++
      (List.range nb).flatMap fun _ => (blockKinds m (g + 1)).map kindName) (3 * (g + 1)) (3 * q)
      ((blockKinds m (g + 1)).tail.map kindName) (by simp [blockKinds_length]) nb (by
        intro b hb r hr
        rw [List.getD_append_right _ _ _ _ (by rw [hA]; omega), hA,
          show 3 * q + (3 * (g + 1) + 1) * b + 1 + r - 3 * q = (1 + 3 * (g + 1)) * b + (1 + r) by ring_nf; omega,
          flatMap_range_getD (fun _ => (blockKinds m (g + 1)).map kindName) (1 + 3 * (g + 1))
            (fun _ => by rw [List.length_map, blockKinds_length]) nb b (1 + r) hb (by omega)]
        rw [Nat.add_comm 1 r]
        rfl) nb 0 (by omega)
  rw [← List.range_eq_range', Nat.mul_zero] at this
  simp only [Nat.add_zero] at this
  rw [Nat.mul_comm q 3, show (fun (b : ℕ) => 3 * q + (1 + 3 * (g + 1)) * b + 3 * (g + 1)) =
    fun (b : ℕ) => 3 * q + (3 * (g + 1) + 1) * b + 3 * (g + 1) by funext b; ring, this]
  refine List.flatMap_congr fun b _ => ?_
  simp only [blockKinds, List.tail_cons, List.map_cons, List.map_map]
  refine congr_arg₂ List.cons ?_ ?_
  · unfold colLabel colBase
    rw [show "line_err_".toList = "line_err".toList ++ ['_'] by decide]
    simp only [List.append_assoc, List.singleton_append]
  · refine List.map_congr_left fun k hk => ?_
    simp only [List.mem_flatMap, List.mem_cons, List.not_mem_nil, or_false] at hk
    obtain ⟨j, -, h⟩ := hk
    have h1 : k ≠ .sysCon ∧ k ≠ .sysLine := by
      rcases h with rfl | rfl | rfl
      · exact ⟨(ampKind_ne m j).2.2.2, (ampKind_ne m j).2.2.1⟩
      · simp
      · simp
    simp only [Function.comp, colLabel]
    have h2 : colBase k = kindName k := by
      unfold colBase
      cases k <;> simp_all
    rw [h2]

end Mica
