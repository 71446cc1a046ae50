import Verif.Proof.PyCols
import Verif.Proof.NumText

/-!
# C116: the columns of the posterior sample have the names of what they hold
-/

namespace Mica

/-- Number of a light curve among all of them, or among those of a data set when the data sets share transfer functions. -/
def LineCfg.curveNo (c : LineCfg) (i j : ℕ) : ℕ := (if c.uniTf = 1 then 0 else (c.nl.take i).sum) + j

/-- The name that the column of a parameter should have. -/
def Slot.label (c : LineCfg) (m : NameMode) : Slot → List Char
  | .con i t => (if t = 0 then "con_err".toList else if t = 1 then "sigmad".toList else "taud".toList) ++
      '_' :: Nat.toDigits 10 (if c.uniVar then 0 else i)
  | .err i j => "line_err".toList ++ '_' :: Nat.toDigits 10 (c.curveNo i j)
  | .comp i j k t => (Nat.toDigits 10 k ++ (if t = 0 then (if m = .pmap ∧ k ≠ 0 then "-th_component_resp_ratio".toList
        else "-th_component_amplitude".toList) else if t = 1 then "-th_component_centroid".toList else "-th_component_sigma".toList)) ++
      '_' :: Nat.toDigits 10 (c.curveNo i j)

theorem slot_label_con (c : LineCfg) (m : NameMode) (i t : ℕ) : (Slot.con i t).label c m =
    (if t = 0 then "con_err".toList else if t = 1 then "sigmad".toList else "taud".toList) ++
      '_' :: Nat.toDigits 10 (if c.uniVar then 0 else i) := by
  unfold Slot.label; with_reducible rfl

theorem slot_label_err (c : LineCfg) (m : NameMode) (i j : ℕ) : (Slot.err i j).label c m =
    "line_err".toList ++ '_' :: Nat.toDigits 10 (c.curveNo i j) := by
  unfold Slot.label; with_reducible rfl

theorem slot_label_comp (c : LineCfg) (m : NameMode) (i j k t : ℕ) : (Slot.comp i j k t).label c m =
    (Nat.toDigits 10 k ++ (if t = 0 then (if m = .pmap ∧ k ≠ 0 then "-th_component_resp_ratio".toList
        else "-th_component_amplitude".toList) else if t = 1 then "-th_component_centroid".toList else "-th_component_sigma".toList)) ++
      '_' :: Nat.toDigits 10 (c.curveNo i j) := by
  unfold Slot.label; with_reducible rfl

/-! ### Different columns, different names -/

theorem append_mark_inj {a a' d d' : List Char} (hd : '_' ∉ d) (hd' : '_' ∉ d') (h : a ++ '_' :: d = a' ++ '_' :: d') : a = a' ∧ d = d' := by
  have key : ∀ x y : List Char, '_' ∉ y → (x ++ '_' :: y).reverse.takeWhile (· ≠ '_') = y.reverse ∧
      (x ++ '_' :: y).reverse.dropWhile (· ≠ '_') = '_' :: x.reverse := by
    intro x y hy
    have hall : ∀ c ∈ y.reverse, decide (c ≠ '_') = true := fun c hc => by
      rw [decide_eq_true_eq]; rintro rfl; exact hy (List.mem_reverse.1 hc)
    rw [List.reverse_append, List.reverse_cons, List.append_assoc, List.takeWhile_append_of_pos hall, List.dropWhile_append_of_pos hall]
    simp
  obtain ⟨h1, h2⟩ := key a d hd
  rw [h, (key a' d' hd').1] at h1
  rw [h, (key a' d' hd').2] at h2
  simp only [List.cons.injEq, true_and] at h2
  exact ⟨List.reverse_injective h2.symm, List.reverse_injective h1.symm⟩

/-- As `kindCode`, for the labels. -/
def baseCode : ParKind → ℕ
  | .sysCon => 7
  | .sysLine => 8
  | k => kindCode k

theorem colBase_split (k : ParKind) : (colBase k).takeWhile Char.isDigit = kindPre k ∧ ((colBase k).dropWhile Char.isDigit).length = baseCode k := by
  have key : ∀ k', colBase k' = kindName k' → baseCode k' = kindCode k' →
      (colBase k').takeWhile Char.isDigit = kindPre k' ∧ ((colBase k').dropWhile Char.isDigit).length = baseCode k' := by
    intro k' h1 h2
    rw [h1, h2, (kindName_split k').1, (kindName_split k').2, kindSuf_length]
    exact ⟨rfl, rfl⟩
  cases k with
  | sysCon => decide
  | sysLine => decide
  | sigmad => exact key _ rfl rfl
  | taud => exact key _ rfl rfl
  | amplitude k => exact key _ rfl rfl
  | ratio k => exact key _ rfl rfl
  | centroid k => exact key _ rfl rfl
  | width k => exact key _ rfl rfl

theorem colBase_inj {a b : ParKind} (h : colBase a = colBase b) : a = b := by
  have h1 := (colBase_split a).1
  rw [h, (colBase_split b).1] at h1
  have h2 := (colBase_split a).2
  rw [h, (colBase_split b).2] at h2
  have h3 : ∀ {a b : ℕ}, Nat.toDigits 10 a = Nat.toDigits 10 b → b = a := fun h => (toDigits_inj h).symm
  cases a <;> cases b <;> simp only [baseCode, kindCode, Nat.reduceEqDiff] at h2 <;>
    simp only [kindPre] at h1 <;> first | (rw [h3 h1]) | rfl

theorem digits_no_mark (n : ℕ) : '_' ∉ Nat.toDigits 10 n := by
  intro h
  have := Nat.isDigit_of_mem_toDigits (by norm_num) (by norm_num) h
  revert this
  decide

theorem colLabel_inj {a b : ParKind × ℕ} (h : colLabel a = colLabel b) : a = b := by
  obtain ⟨h1, h2⟩ := append_mark_inj (digits_no_mark _) (digits_no_mark _) h
  exact Prod.ext (colBase_inj h1) (toDigits_inj h2)

theorem blockKinds_nodup (m : NameMode) (ng : ℕ) : (blockKinds m ng).Nodup := by
  unfold blockKinds
  refine List.nodup_cons.2 ⟨?_, List.nodup_flatMap.2 ⟨?_, ?_⟩⟩
  · intro h
    obtain ⟨k, _, h⟩ := List.mem_flatMap.1 h
    simp only [List.mem_cons, reduceCtorEq, List.not_mem_nil, or_false] at h
    exact (ampKind_ne m k).2.2.1 h.symm
  · intro k _
    have h1 : ampKind m k ≠ .centroid k := by unfold ampKind; cases m <;> simp; split <;> simp
    have h2 := (ampKind_ne m k).2.1 k
    simp [h1, h2]
  · refine List.nodup_range.imp fun {a b} hab => ?_
    have h1 : ∀ x y, ampKind m x = ampKind m y → x = y := by
      intro x y h
      unfold ampKind at h
      cases m <;> simp only at h
      · injection h
      · split at h <;> split at h <;> injection h
      · injection h
    have h2 : ∀ x y, ampKind m x ≠ .centroid y := by
      intro x y
      unfold ampKind
      cases m <;> simp
      split <;> simp
    have h3 := fun x y => (ampKind_ne m x).2.1 y
    intro k hk1 hk2
    simp only [List.mem_cons, List.not_mem_nil, or_false] at hk1 hk2
    rcases hk1 with rfl | rfl | rfl <;> rcases hk2 with h | h | h
    · exact hab (h1 _ _ h)
    · exact h2 _ _ h
    · exact h3 _ _ h
    · exact h2 _ _ h.symm
    · injection h with h; exact hab h
    · cases h
    · exact h3 _ _ h.symm
    · cases h
    · injection h with h; exact hab h

theorem colKinds_nodup (m : NameMode) (q nb ng : ℕ) : (colKinds m q nb ng).Nodup := by
  unfold colKinds
  refine List.nodup_append.2 ⟨List.nodup_flatMap.2 ⟨fun i _ => by simp, ?_⟩, List.nodup_flatMap.2 ⟨fun b _ => ?_, ?_⟩, ?_⟩
  · refine List.nodup_range.imp fun {a b} hab => ?_
    intro e h1 h2
    simp only [List.mem_cons, List.not_mem_nil, or_false] at h1 h2
    rcases h1 with rfl | rfl | rfl <;> simp at h2 <;> exact hab h2
  · exact (blockKinds_nodup m ng).map fun x y h => (Prod.mk.inj h).1
  · refine List.nodup_range.imp fun {a b} hab => ?_
    intro e h1 h2
    obtain ⟨_, _, rfl⟩ := List.mem_map.1 h1
    obtain ⟨_, _, h⟩ := List.mem_map.1 h2
    exact hab (Prod.mk.inj h).2.symm
  · intro a ha b hb hab
    subst hab
    obtain ⟨i, _, ha⟩ := List.mem_flatMap.1 ha
    obtain ⟨i', _, hb⟩ := List.mem_flatMap.1 hb
    obtain ⟨k, hk, rfl⟩ := List.mem_map.1 hb
    unfold blockKinds at hk
    simp only [List.mem_cons, Prod.mk.injEq, List.not_mem_nil, or_false, List.mem_flatMap] at ha hk
    have h4 : ∀ x, ampKind m x ≠ .sigmad := by
      intro x
      unfold ampKind
      cases m <;> simp
      split <;> simp
    rcases hk with rfl | ⟨j, _, rfl | rfl | rfl⟩
    · simp at ha
    · rcases ha with ha | ha | ha
      · exact (ampKind_ne m j).2.2.2 ha.1
      · exact h4 j ha.1
      · exact (ampKind_ne m j).1 ha.1
    · simp at ha
    · simp at ha

theorem colBase_kinds : colBase .sysCon = "con_err".toList ∧ colBase .sysLine = "line_err".toList ∧ colBase .sigmad = "sigmad".toList ∧
    colBase .taud = "taud".toList := by
  refine ⟨?_, ?_, ?_, ?_⟩
  · unfold colBase; with_reducible rfl
  · unfold colBase; with_reducible rfl
  · unfold colBase kindName; with_reducible rfl
  · unfold colBase kindName; with_reducible rfl

theorem colBase_comp (k : ℕ) : colBase (.amplitude k) = Nat.toDigits 10 k ++ "-th_component_amplitude".toList ∧
    colBase (.ratio k) = Nat.toDigits 10 k ++ "-th_component_resp_ratio".toList ∧
    colBase (.centroid k) = Nat.toDigits 10 k ++ "-th_component_centroid".toList ∧
    colBase (.width k) = Nat.toDigits 10 k ++ "-th_component_sigma".toList := by
  refine ⟨?_, ?_, ?_, ?_⟩ <;> · unfold colBase kindName; with_reducible rfl

theorem label_con (n u : ℕ) (hu : u < 3) :
    colLabel (([(ParKind.sysCon, n), (.sigmad, n), (.taud, n)] : List (ParKind × ℕ)).getD u (.sysCon, 0)) =
      (if u = 0 then "con_err".toList else if u = 1 then "sigmad".toList else "taud".toList) ++ '_' :: Nat.toDigits 10 n := by
  obtain ⟨h1, -, h2, h3⟩ := colBase_kinds
  rcases u with _ | _ | _ | u
  · rw [if_pos rfl, List.getD_cons_zero, ← h1]; unfold colLabel; with_reducible rfl
  · rw [if_neg (by omega), if_pos rfl, List.getD_cons_succ, List.getD_cons_zero, ← h2]; unfold colLabel; with_reducible rfl
  · rw [if_neg (by omega), if_neg (by omega), List.getD_cons_succ, List.getD_cons_succ, List.getD_cons_zero, ← h3]
    unfold colLabel; with_reducible rfl
  · omega

theorem label_comp (m : NameMode) (n k u : ℕ) (hu : u < 3) :
    colLabel ((([ampKind m k, .centroid k, .width k] : List ParKind).map fun x => (x, n)).getD u (.sysCon, 0)) =
      (Nat.toDigits 10 k ++ (if u = 0 then (if m = .pmap ∧ k ≠ 0 then "-th_component_resp_ratio".toList
        else "-th_component_amplitude".toList) else if u = 1 then "-th_component_centroid".toList else "-th_component_sigma".toList)) ++
      '_' :: Nat.toDigits 10 n := by
  obtain ⟨h1, h2, h3, h4⟩ := colBase_comp k
  rcases u with _ | _ | _ | u
  · rw [if_pos rfl, List.map_cons, List.getD_cons_zero]
    have h5 : colBase (ampKind m k) = Nat.toDigits 10 k ++ (if m = .pmap ∧ k ≠ 0 then "-th_component_resp_ratio".toList
        else "-th_component_amplitude".toList) := by
      by_cases h : m = .pmap ∧ k ≠ 0
      · rw [if_pos h, ← h2, h.1, ampKind, if_neg h.2]
      · rw [if_neg h, ← h1]
        cases m with
        | line b => rfl
        | vmap => rfl
        | pmap =>
          have h0 : k = 0 := by by_contra h0; exact h ⟨rfl, h0⟩
          rw [ampKind, if_pos h0]
    rw [← h5]; unfold colLabel; with_reducible rfl
  · rw [if_neg (by omega), if_pos rfl, List.map_cons, List.map_cons, List.getD_cons_succ, List.getD_cons_zero, ← h3]
    unfold colLabel; with_reducible rfl
  · rw [if_neg (by omega), if_neg (by omega), List.map_cons, List.map_cons, List.map_cons, List.getD_cons_succ, List.getD_cons_succ,
      List.getD_cons_zero, ← h4]
    unfold colLabel; with_reducible rfl
  · omega

/-! ### The property -/

theorem colNames_cfg {fF fE : ℝ → List Char} (hF : WordForm fF) (hE : WordForm fE) (c : LineCfg) (hng : 1 ≤ c.ng) (m : NameMode) (t : ParTab) :
    ∃ q, c.numVar = 3 * q ∧
      colNames c.ng (parNameFile fF fE m c.numVar c.numLine c.ng t) = (colKinds m q c.nblocks c.ng).map colLabel := by
  obtain ⟨q, hq⟩ := c.numVar_mod
  refine ⟨q, hq, ?_⟩
  obtain ⟨g, hg⟩ : ∃ g, c.ng = g + 1 := ⟨c.ng - 1, by omega⟩
  have := colNames_eq hF hE m q c.nblocks g t
  rw [← hg] at this
  rw [hq, c.numLine_eq]
  exact this

theorem wordForm_fmt6 : WordForm fmt6 := readsBack_fmt6.word
theorem wordForm_sci (p : ℕ) : WordForm (sciText p) := (scanLf_sci p).word

/-- **C116.** `get_posterior_sample` reads the names that the program printed and makes of them one label per parameter; no two
labels are the same, and the column in which the likelihood finds a parameter has that parameter's label. -/
theorem C116_columns (c : LineCfg) (hng : 1 ≤ c.ng) (m : NameMode) (t : ParTab) :
    (colNames c.ng (parNameFile fmt6 (sciText 6) m c.numVar c.numLine c.ng t)).length = c.numParams ∧
    (colNames c.ng (parNameFile fmt6 (sciText 6) m c.numVar c.numLine c.ng t)).Nodup ∧
    ∀ s : Slot, s.Valid c →
      (colNames c.ng (parNameFile fmt6 (sciText 6) m c.numVar c.numLine c.ng t))[s.addr c]? = some (s.label c m) := by
  obtain ⟨q, hq, h⟩ := colNames_cfg wordForm_fmt6 (wordForm_sci 6) c hng m t
  rw [h]
  have hA : ((List.range q).flatMap fun i => [(ParKind.sysCon, i), (ParKind.sigmad, i), (ParKind.taud, i)]).length = 3 * q := by
    simp [List.length_flatMap, Nat.mul_comm]
  have hlen : (colKinds m q c.nblocks c.ng).length = c.numParams := by
    unfold colKinds LineCfg.numParams
    rw [List.length_append, hA, c.numLine_eq, hq]
    simp [List.length_flatMap, blockKinds_length, LineCfg.blk, Nat.mul_comm]
  refine ⟨by rw [List.length_map, hlen], (colKinds_nodup m q c.nblocks c.ng).map fun a b => colLabel_inj, ?_⟩
  have key : ∀ n e, (colKinds m q c.nblocks c.ng).getD n (.sysCon, 0) = e → n < c.numParams →
      ((colKinds m q c.nblocks c.ng).map colLabel)[n]? = some (colLabel e) := by
    intro n e he hn
    rw [← hlen] at hn
    rw [List.getD_eq_getElem _ _ hn] at he
    rw [List.getElem?_map, List.getElem?_eq_getElem hn, he]
    rfl
  have hblk : ∀ b < c.nblocks, ∀ r < c.blk, (colKinds m q c.nblocks c.ng).getD (c.blk * b + c.numVar + r) (.sysCon, 0) =
      ((blockKinds m c.ng).map fun k => (k, b)).getD r (.sysCon, 0) := by
    intro b hb r hr
    unfold colKinds
    rw [List.getD_append_right _ _ _ _ (by rw [hA]; omega), hA,
      show c.blk * b + c.numVar + r - 3 * q = c.blk * b + r by omega]
    exact flatMap_range_getD (fun b => (blockKinds m c.ng).map fun k => (k, b)) c.blk (fun _ => by
      rw [List.length_map, blockKinds_length, LineCfg.blk]) c.nblocks b r hb hr _
  rintro (⟨i, u⟩ | ⟨i, j⟩ | ⟨i, j, k, u⟩) hv
  · obtain ⟨hi, hu⟩ := hv
    have hlt : c.idxCon i + u < c.numVar := by
      unfold LineCfg.idxCon LineCfg.numVar; split <;> omega
    have hno : c.idxCon i + u = 3 * (if c.uniVar then 0 else i) + u := by unfold LineCfg.idxCon; split <;> omega
    have hiq : (if c.uniVar then 0 else i) < q := by
      rw [hno] at hlt; omega
    rw [slot_label_con, Slot.addr, key _ (([(ParKind.sysCon, if c.uniVar then 0 else i), (.sigmad, if c.uniVar then 0 else i),
      (.taud, if c.uniVar then 0 else i)] : List (ParKind × ℕ)).getD u (.sysCon, 0)) ?_ (by unfold LineCfg.numParams; omega)]
    · rw [label_con _ u hu]
    · unfold colKinds
      rw [List.getD_append _ _ _ _ (by rw [hA]; omega), hno]
      exact flatMap_range_getD (fun i => [(ParKind.sysCon, i), (ParKind.sigmad, i), (ParKind.taud, i)]) 3 (fun _ => rfl) q _ u hiq hu _
  · have hb := c.bno_lt i j hv
    have hget := hblk _ hb 0 c.blk_pos
    rw [blockKinds, List.map_cons, List.getD_cons_zero, Nat.add_zero] at hget
    rw [slot_label_err, Slot.addr, c.idxLine_eq i j hv, key _ _ hget (by have := c.addr_lt hb c.blk_pos; rw [Nat.add_zero] at this; exact this)]
    rw [← colBase_kinds.2.1]
    unfold colLabel LineCfg.bno LineCfg.curveNo
    with_reducible rfl
  · obtain ⟨hj, hk, hu⟩ := hv
    have hb := c.bno_lt i j hj
    simp only [Slot.addr]
    rw [c.idxLine_eq i j hj, show c.blk * c.bno i j + c.numVar + 1 + k * 3 + u =
      c.blk * c.bno i j + c.numVar + (1 + (3 * k + u)) by omega]
    have hr : 1 + (3 * k + u) < c.blk := by unfold LineCfg.blk; omega
    have hget := hblk _ hb _ hr
    rw [Nat.add_comm 1 (3 * k + u), blockKinds, List.map_cons, List.getD_cons_succ, List.map_flatMap,
      flatMap_range_getD (fun k => ([ampKind m k, .centroid k, .width k] : List ParKind).map fun x => (x, c.bno i j)) 3 (fun _ => rfl)
        c.ng k u hk hu] at hget
    rw [Nat.add_comm 1 (3 * k + u), key _ _ hget (by have := c.addr_lt hb hr; rw [Nat.add_comm 1] at this; exact this)]
    rw [label_comp m _ k u hu, slot_label_comp, LineCfg.bno, LineCfg.curveNo]

/-- Two data sets with one and two light curves, three components. -/
example : ((lineCfgEx 0 0 [1, 2] true).ng = 3) ∧
    (colNames 3 (parNameFile fmt6 (sciText 6) (.line false) (lineCfgEx 0 0 [1, 2] true).numVar (lineCfgEx 0 0 [1, 2] true).numLine 3
      (parTabEx (lineCfgEx 0 0 [1, 2] true).numParams)))[(Slot.comp 1 0 2 1).addr (lineCfgEx 0 0 [1, 2] true)]? =
    some "2-th_component_centroid_1".toList := by
  refine ⟨rfl, ?_⟩
  have := (C116_columns (lineCfgEx 0 0 [1, 2] true) (by simp [lineCfgEx]) (.line false)
    (parTabEx (lineCfgEx 0 0 [1, 2] true).numParams)).2.2 (.comp 1 0 2 1) (by simp [Slot.Valid, lineCfgEx])
  rw [show (lineCfgEx 0 0 [1, 2] true).ng = 3 from rfl] at this
  rw [this]
  decide +kernel

end Mica
