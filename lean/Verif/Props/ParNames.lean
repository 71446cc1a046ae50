import Verif.Proof.ParNames
import Verif.Props.LineParams
import Verif.Props.Priors

/-!
# C91: the file of parameter names

docs/para_prior.rst: the program prints, with `-n`, the parameters and their ranges into a file, which the user may edit and
load with `-l`.
-/

namespace Mica

/-- What a slot of the parameter vector is called. -/
def Slot.kind (m : NameMode) : Slot → ParKind
  | .con _ t => if t = 0 then .sysCon else if t = 1 then .sigmad else .taud
  | .err _ _ => .sysLine
  | .comp _ _ k t => if t = 0 then (if m = .pmap ∧ k ≠ 0 then .ratio k else .amplitude k)
      else if t = 1 then .centroid k else .width k

/-- C91: the file has one line per parameter, and line `i` has the name of the parameter which the likelihood takes from
position `i` of the parameter vector. -/
theorem C91_layout (c : LineCfg) (m : NameMode) :
    (parKinds m c.numVar c.numLine c.ng).length = c.numParams ∧
    ∀ s : Slot, s.Valid c → (parKinds m c.numVar c.numLine c.ng)[s.addr c]? = some (s.kind m) := by
  refine ⟨parKinds_length c m, ?_⟩
  obtain ⟨q, hq⟩ := c.numVar_mod
  have h1 : (c.numVar + 2) / 3 = q := by omega
  have h2 : (c.numLine + 3 * c.ng) / (1 + 3 * c.ng) = c.nblocks := by
    rw [c.numLine_eq]
    unfold LineCfg.blk
    rw [Nat.add_comm, Nat.add_mul_div_left _ _ (by omega), Nat.div_eq_of_lt (by omega)]; omega
  have hl1 : ((List.range q).flatMap fun _ => [ParKind.sysCon, .sigmad, .taud]).length = c.numVar := by
    simp [List.length_flatMap, hq, Nat.mul_comm]
  have key : ∀ n k, (parKinds m c.numVar c.numLine c.ng).getD n .sysCon = k → n < c.numParams →
      (parKinds m c.numVar c.numLine c.ng)[n]? = some k := by
    intro n k hk hn
    rw [← parKinds_length c m] at hn
    rw [List.getD_eq_getElem _ _ hn] at hk
    rw [List.getElem?_eq_getElem hn, hk]
  have hcon : ∀ n < c.numVar, (parKinds m c.numVar c.numLine c.ng).getD n .sysCon =
      [ParKind.sysCon, .sigmad, .taud].getD (n % 3) .sysCon := by
    intro n hn
    unfold parKinds
    rw [h1, List.getD_append _ _ _ _ (by rw [hl1]; exact hn)]
    have := flatMap_range_getD (fun _ => [ParKind.sysCon, .sigmad, .taud]) 3 (fun _ => rfl) q (n / 3) (n % 3)
      (by omega) (by omega) .sysCon
    rw [Nat.div_add_mod] at this
    exact this
  have hblk : ∀ b < c.nblocks, ∀ r < c.blk, (parKinds m c.numVar c.numLine c.ng).getD (c.blk * b + c.numVar + r) .sysCon =
      (ParKind.sysLine :: (List.range c.ng).flatMap fun k => [ampKind m k, .centroid k, .width k]).getD r .sysCon := by
    intro b hb r hr
    unfold parKinds
    rw [h1, h2, List.getD_append_right _ _ _ _ (by rw [hl1]; omega), hl1,
      show c.blk * b + c.numVar + r - c.numVar = c.blk * b + r by omega]
    exact flatMap_range_getD (fun _ => ParKind.sysLine :: (List.range c.ng).flatMap fun k =>
      [ampKind m k, .centroid k, .width k]) c.blk (fun _ => by
        simp [LineCfg.blk, List.length_flatMap, Nat.mul_comm, Nat.add_comm]) c.nblocks b r hb hr .sysCon
  rintro (⟨i, t⟩ | ⟨i, j⟩ | ⟨i, j, k, t⟩) hv
  · obtain ⟨hi, ht⟩ := hv
    have hlt : c.idxCon i + t < c.numVar := by
      unfold LineCfg.idxCon LineCfg.numVar; split <;> omega
    have hm : (c.idxCon i + t) % 3 = t := by unfold LineCfg.idxCon; split <;> omega
    refine key _ _ ?_ (by simp only [Slot.addr]; unfold LineCfg.numParams; omega)
    simp only [Slot.addr]
    rw [hcon _ hlt, hm]
    rcases t with _ | _ | _ | t
    · rfl
    · rfl
    · rfl
    · omega
  · have hb := c.bno_lt i j hv
    simp only [Slot.addr]
    rw [c.idxLine_eq i j hv]
    refine key _ _ ?_ (c.addr_lt hb c.blk_pos)
    have := hblk _ hb 0 c.blk_pos
    simpa [Slot.kind] using this
  · obtain ⟨hj, hk, ht⟩ := hv
    have hb := c.bno_lt i j hj
    simp only [Slot.addr]
    rw [c.idxLine_eq i j hj, show c.blk * c.bno i j + c.numVar + 1 + k * 3 + t =
      c.blk * c.bno i j + c.numVar + (1 + (3 * k + t)) by omega]
    have hr : 1 + (3 * k + t) < c.blk := by unfold LineCfg.blk; omega
    refine key _ _ ?_ (c.addr_lt hb hr)
    rw [hblk _ hb _ hr, Nat.add_comm 1, List.getD_cons_succ,
      flatMap_range_getD (fun k => [ampKind m k, .centroid k, .width k]) 3 (fun _ => rfl) c.ng k t hk ht .sysCon]
    rcases t with _ | _ | _ | t
    · simp only [Slot.kind, ampKind, List.getD_cons_zero, if_true]
      cases m <;> by_cases h0 : k = 0 <;> simp [h0]
    · rfl
    · rfl
    · omega

/-- A file of names just printed, loaded again into any table, restores all ranges, flags and fixed values, up to the
decimals printed, if its lines fit the buffer. -/
theorem C91_roundtrip {lf : List Char → Option (ℝ × List Char)} {fF fE : ℝ → List Char} {rF rE : ℝ → ℝ}
    (hF : ReadsBack lf fF rF) (hE : ReadsBack lf fE rE) (m : NameMode) (nv nl ng np : ℕ)
    (hnp : (parKinds m nv nl ng).length = np) (t t0 : ParTab)
    (ht : t.range.length = np ∧ t.fix.length = np ∧ t.val.length = np)
    (ht0 : t0.range.length = np ∧ t0.fix.length = np ∧ t0.val.length = np)
    (hs : ∀ l ∈ parNameLines fF fE m nv nl ng t, l.length < 254) :
    loadParNames (scanParLine lf) np (parNameFile fF fE m nv nl ng t) t0 =
      .ok ⟨t.range.map fun r => (rF r.1, rF r.2), t.fix, t.val.map rE⟩ := by
  let es : List ParLine := (List.range np).map fun i : ℕ =>
    ⟨(i : ℤ), rF (t.entry i).lo, rF (t.entry i).hi, (t.entry i).fix, rE (t.entry i).val⟩
  have hfa : List.Forall₂ (IsParLine (scanParLine lf)) (parNameLines fF fE m nv nl ng t) es := by
    rw [List.forall₂_iff_get]
    refine ⟨by simp [parNameLines, es, hnp], fun i h1 h2 => ?_⟩
    have hm : (parNameLines fF fE m nv nl ng t)[i] ∈ parNameLines fF fE m nv nl ng t := List.getElem_mem h1
    have := hs _ hm
    simp only [parNameLines, List.get_eq_getElem, List.getElem_mapIdx, es, List.getElem_map, List.getElem_range] at this ⊢
    exact isParLine_parLine hF hE m i _ _ this
  have hidx : ∀ e ∈ es, 0 ≤ e.idx ∧ e.idx < (np : ℤ) := by
    intro e he
    obtain ⟨i, hi, rfl⟩ := List.mem_map.1 he
    have := List.mem_range.1 hi
    dsimp only
    omega
  obtain ⟨t', h1, h2, h3, h4, -, h5⟩ := C56_load_partial (scanParLine lf) _ es hfa np hidx t0 ht0
  have htext : textOf (parNameLines fF fE m nv nl ng t) [] = parNameFile fF fE m nv nl ng t := by
    simp [textOf, parNameFile, List.flatMap_def]
  rw [htext] at h1
  have hall : ∀ i < np, t'.range[i]? = some (rF (t.entry i).lo, rF (t.entry i).hi) ∧ t'.fix[i]? = some (t.entry i).fix ∧
      t'.val[i]? = some (rE (t.entry i).val) := by
    intro i hi
    have hsplit : es = es.take i ++ es[i]'(by simpa [es] using hi) :: es.drop (i + 1) := by
      rw [← List.drop_eq_getElem_cons, List.take_append_drop]
    have := h5 _ _ _ hsplit (by
      intro x hx
      obtain ⟨j, hj, rfl⟩ := List.mem_iff_getElem.1 hx
      simp only [es, List.getElem_drop, List.getElem_map, List.getElem_range]
      omega)
    simpa [es] using this
  rw [h1]
  obtain ⟨r', f', v'⟩ := t'
  congr 1
  simp only at h2 h3 h4 hall
  congr 1
  · refine List.ext_getElem (by simp [h2, ht.1]) fun i hi1 hi2 => ?_
    have hi : i < np := by omega
    have := (hall i hi).1
    rw [List.getElem?_eq_getElem hi1] at this
    have hr : i < t.range.length := by omega
    simp only [ParTab.entry, List.getD_eq_getElem _ _ hr] at this
    simpa using this
  · refine List.ext_getElem (by simp [h3, ht.2.1]) fun i hi1 hi2 => ?_
    have hi : i < np := by omega
    have := (hall i hi).2.1
    rw [List.getElem?_eq_getElem hi1] at this
    simp only [ParTab.entry, List.getD_eq_getElem _ _ hi2] at this
    simpa using this
  · refine List.ext_getElem (by simp [h4, ht.2.2]) fun i hi1 hi2 => ?_
    have hi : i < np := by omega
    have := (hall i hi).2.2
    rw [List.getElem?_eq_getElem hi1] at this
    have hr : i < t.val.length := by omega
    simp only [ParTab.entry, List.getD_eq_getElem _ _ hr] at this
    simpa using this

/-- C91: loading a file of names into any table restores the flags, and all ranges to six decimals; for ranges of
absolute value up to `10⁵⁰`, whose lines fit the buffer.  `lf` is any `%lf` that reads decimal numbers, and the fixed
values as `fE` prints them, in at most 14 characters. -/
theorem C91_restored {lf : List Char → Option (ℝ × List Char)} {fE : ℝ → List Char} {rE : ℝ → ℝ}
    (hF : ReadsBack lf fmt6 rd6) (hE : ReadsBack lf fE rE) (m : NameMode) (c : LineCfg)
    (hng : c.ng < 2 ^ 32) (hnp : c.numParams < 2 ^ 32) (t t0 : ParTab) (hE14 : ∀ x ∈ t.val, (fE x).length ≤ 14)
    (ht : t.range.length = c.numParams ∧ t.fix.length = c.numParams ∧ t.val.length = c.numParams)
    (ht0 : t0.range.length = c.numParams ∧ t0.fix.length = c.numParams ∧ t0.val.length = c.numParams)
    (hr : ∀ r ∈ t.range, |r.1| < 10 ^ 50 ∧ |r.2| < 10 ^ 50) (hfix : ∀ z ∈ t.fix, z.natAbs < 2 ^ 32) :
    ∃ t' : ParTab, loadParNames (scanParLine lf) c.numParams (parNameFile fmt6 fE m c.numVar c.numLine c.ng t) t0 = .ok t' ∧
      t'.fix = t.fix ∧ t'.val = t.val.map rE ∧
      List.Forall₂ (fun r' r => |r'.1 - r.1| ≤ 1 / 2 / 10 ^ 6 ∧ |r'.2 - r.2| ≤ 1 / 2 / 10 ^ 6) t'.range t.range := by
  refine ⟨_, C91_roundtrip hF hE m _ _ _ _ (parKinds_length c m) t t0 ht ht0 ?_, rfl, rfl, ?_⟩
  · intro l hl
    obtain ⟨i, hi, rfl⟩ := List.mem_iff_getElem.1 hl
    simp only [parNameLines, List.length_mapIdx, parKinds_length] at hi
    simp only [parNameLines, List.getElem_mapIdx]
    have h1 : i < t.range.length := by omega
    have h2 : i < t.fix.length := by omega
    have h3 : i < t.val.length := by omega
    have hri := hr _ (List.getElem_mem h1)
    have hfi := hfix _ (List.getElem_mem h2)
    refine parLine_length fE m i _ _ (by omega) (Nat.lt_of_le_of_lt (parKinds_no m _ _ _ _ (List.getElem_mem _)) hng) ?_ ?_ ?_
      (by simp only [ParTab.entry, List.getD_eq_getElem _ _ h3]; exact hE14 _ (List.getElem_mem h3))
    · simp only [ParTab.entry, List.getD_eq_getElem _ _ h1]; exact hri.1
    · simp only [ParTab.entry, List.getD_eq_getElem _ _ h1]; exact hri.2
    · simp only [ParTab.entry, List.getD_eq_getElem _ _ h2]; exact hfi
  · rw [List.forall₂_map_left_iff, List.forall₂_same]
    exact fun r _ => ⟨rd6_near _, rd6_near _⟩

/-- The number as `%.6f` prints it, if it is short: a stand-in for `%.6e`. -/
noncomputable def fmtShort (x : ℝ) : List Char := if |x| < 10 ^ 5 then fmt6 x else fmt6 0

/-- The hypotheses of `C91_restored` are met: by the six-decimals format and the decimal reader. -/
example : ReadsBack scanDec fmt6 rd6 ∧ ReadsBack scanDec fmtShort (fun x => if |x| < 10 ^ 5 then rd6 x else rd6 0) ∧
    ∀ x, (fmtShort x).length ≤ 14 := by
  refine ⟨readsBack_fmt6, ⟨fun x => ?_, fun x a r ha hr => ?_⟩, fun x => ?_⟩
  · unfold fmtShort; split <;> exact readsBack_fmt6.word _
  · unfold fmtShort; split <;> exact readsBack_fmt6.read _ a r ha hr
  · unfold fmtShort
    split
    · rename_i h; exact fmt6_length _ 5 h
    · exact fmt6_length _ 5 (by norm_num)

/-- A table with a free and a fixed parameter for every position. -/
noncomputable def parTabEx (n : ℕ) : ParTab :=
  ⟨List.replicate n (-4.160532, 7 / 3), List.replicate n 1, List.replicate n 2.5⟩

example (ty uni : ℕ) (nl : List ℕ) (pos : Bool) (h : (lineCfgEx ty uni nl pos).numParams < 2 ^ 32) :
    ∃ t', loadParNames (scanParLine scanDec) (lineCfgEx ty uni nl pos).numParams (parNameFile fmt6 fmtShort (.line false)
      (lineCfgEx ty uni nl pos).numVar (lineCfgEx ty uni nl pos).numLine (lineCfgEx ty uni nl pos).ng
      (parTabEx (lineCfgEx ty uni nl pos).numParams)) ⟨List.replicate (lineCfgEx ty uni nl pos).numParams (0, 0),
        List.replicate (lineCfgEx ty uni nl pos).numParams 0, List.replicate (lineCfgEx ty uni nl pos).numParams 0⟩ = .ok t' ∧
      t'.fix = List.replicate (lineCfgEx ty uni nl pos).numParams 1 := by
  obtain ⟨t', h1, h2, -, -⟩ := C91_restored (fE := fmtShort) (rE := fun x => if |x| < 10 ^ 5 then rd6 x else rd6 0)
    readsBack_fmt6 ⟨fun x => by unfold fmtShort; split <;> exact readsBack_fmt6.word _,
      fun x a r ha hr => by unfold fmtShort; split <;> exact readsBack_fmt6.read _ a r ha hr⟩
    (.line false) (lineCfgEx ty uni nl pos) (by simp [lineCfgEx]) h
    (parTabEx (lineCfgEx ty uni nl pos).numParams) ⟨List.replicate (lineCfgEx ty uni nl pos).numParams (0, 0),
      List.replicate (lineCfgEx ty uni nl pos).numParams 0, List.replicate (lineCfgEx ty uni nl pos).numParams 0⟩
    (fun x _ => by
      unfold fmtShort
      split
      · rename_i h; exact fmt6_length _ 5 h
      · exact fmt6_length _ 5 (by norm_num)) (by simp [parTabEx]) (by simp)
    (by
      intro r hr
      rw [parTabEx] at hr
      rw [List.eq_of_mem_replicate hr]
      norm_num [abs_lt])
    (by
      intro z hz
      rw [parTabEx] at hz
      rw [List.eq_of_mem_replicate hz]
      decide)
  exact ⟨t', h1, h2⟩

/-! ### The file written by a run without continuum analysis -/

/-- C91 fails for the file of a post-processing run (`-p`, `-d`): the continuum is not analysed (src/run.c:43-44),
`var_param` and `var_param_std` keep their initial zeros (src/init.c:306-312), and the file written (over that of the
sampling run) gives every continuum parameter the range from 0 to 0. -/
theorem C91_fails_post (c : LineCfg) (hpar : ∀ i, c.varPar i = 0) (hstd : ∀ i, c.varStd i = 0)
    (hspan : 1 ≤ c.tspan * 2 * Real.pi) : ∀ i < c.numVar, c.rng i = (0, 0) := by
  intro i hi
  have h := c.rng_var (i / 3) (i % 3) (by omega) (by omega)
  rw [show 3 * (i / 3) + i % 3 = i by omega] at h
  rw [h]
  have h0 : (0 : ℝ) ≤ Real.log (1 + 10) := Real.log_nonneg (by norm_num)
  have h1 : Real.log (1 / 10 ^ 4) ≤ 0 := Real.log_nonpos (by norm_num) (by norm_num)
  have h2 : (0 : ℝ) ≤ Real.log 10 := Real.log_nonneg (by norm_num)
  have h3 : (0 : ℝ) ≤ Real.log (c.tspan * 2 * Real.pi) := Real.log_nonneg hspan
  simp only [LineCfg.varParRange, hpar, hstd, mul_zero, sub_zero, add_zero]
  have : i % 3 = 0 ∨ i % 3 = 1 ∨ i % 3 = 2 := by omega
  rcases this with e | e | e <;> rw [e] <;> simp only [LineCfg.varRange, Real.log_one]
  · rw [max_self, min_eq_left h0]
  · rw [max_eq_left h1, min_eq_left h2]
  · rw [max_self, min_eq_left h3]

/-- A run which loads that file with `-l` stops at the variability amplitude, if its continuum analysis finds one more
than five deviations away from 0 (amplitude 1 in scaled flux). -/
theorem C91_fails_reload (par std : ℕ → ℝ) (n : ℕ) (hn : 1 ≤ n) (r : ℕ → ℝ × ℝ) (h0 : r 1 = (0, 0)) (hs : 0 < std 1)
    (hfar : 5 * std 1 < |par 1|) : drwLoad par std n r = .exit := by
  have hd : drwRange (r 1) (par 1) (std 1) = .exit := by
    unfold drwRange
    rw [h0, if_pos hs, if_pos]
    rcases lt_abs.1 hfar with h | h
    · right; simp only; linarith
    · left; simp only; linarith
  induction n with
  | zero => omega
  | succ n ih =>
    cases n with
    | zero =>
      change Res.bind (drwRange (r 1) (par 1) (std 1)) _ = _
      rw [hd]; rfl
    | succ n =>
      unfold drwLoad
      rw [ih (by omega)]; rfl

/-- The numbers of the example in docs/para_prior.rst: amplitude `-3.829 ± 0.066`. -/
example (r : ℕ → ℝ × ℝ) (h0 : r 1 = (0, 0)) :
    drwLoad (fun i => if i = 1 then -3.829 else 4) (fun i => if i = 1 then 0.066 else 1) 1 r = .exit :=
  C91_fails_reload _ _ 1 (by omega) r h0 (by norm_num) (by norm_num [abs_of_neg])

example : ∃ c : LineCfg, (∀ i, c.varPar i = 0) ∧ (∀ i, c.varStd i = 0) ∧ 1 ≤ c.tspan * 2 * Real.pi ∧ 0 < c.numVar := by
  refine ⟨{ lineCfgEx 0 0 [1] true with varPar := fun _ => 0, varStd := fun _ => 0, tspan := 100 }, fun _ => rfl,
    fun _ => rfl, ?_, ?_⟩
  · have := Real.one_le_pi_div_two
    simp only
    linarith
  · simp [LineCfg.numVar, lineCfgEx]

end Mica
