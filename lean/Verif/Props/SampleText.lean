import Verif.Proof.SampleText
import Verif.Props.Postprocess

/-!
# C103: what the sampler's files hand on

The files of levels, samples and sample information are written by one part of the program, read by
another, which writes the file of posterior samples, which is read by the programs that summarise,
reconstruct and decompose.  Here all of them are texts.
-/

namespace Mica

/-- The level as it stands in the file. -/
noncomputable def LevelRow.printed (l : LevelRow) : PLevel := ⟨sciVal 11 l.logX, sciVal 11 l.logl⟩

/-- The information on a sample as it stands in the file. -/
noncomputable def SavedRow.printed (s : SavedRow) : PInfo := ⟨s.level, sciVal 6 s.logl, rd6 s.tie⟩

theorem scanD_nat (n : ℕ) {a r : List Char} (ha : ∀ c ∈ a, isSpaceC c = true) (hr : NumEnd r) :
    scanD (a ++ (Nat.toDigits 10 n ++ r)) = some ((n : ℤ), r) := by
  obtain ⟨c, d, e⟩ := List.exists_cons_of_ne_nil (Nat.toDigits_ne_nil (n := n) (b := 10))
  have hdig : ∀ x ∈ Nat.toDigits 10 n, x.isDigit = true := fun x hx =>
    Nat.isDigit_of_mem_toDigits (by norm_num) (by norm_num) hx
  have hc := hdig c (by rw [e]; simp)
  have h1 : c ≠ '-' := by rintro rfl; exact absurd hc (by decide)
  have h2 : c ≠ '+' := by rintro rfl; exact absurd hc (by decide)
  have hs := span_digits hdig hr.noDigit
  have hv := digitsVal_toDigits n
  rw [e] at hs hv ⊢
  have hsk : skipSpace (a ++ (c :: d ++ r)) = c :: (d ++ r) := by
    rw [skipSpace_append ha]
    simp [skipSpace, isDigit_not_space hc]
  unfold scanD
  rw [hsk]
  rw [List.cons_append] at hs
  split
  · rename_i heq; exact absurd (List.cons.inj heq).1 h1
  · rename_i heq; exact absurd (List.cons.inj heq).1 h2
  · unfold scanDNum
    rw [hs.1, hs.2, if_neg (by simp), if_neg (by simp), hv]

theorem readState_text (a b : ℕ) : readState (stateText a b) = .ok (a, b) := by
  have h1 := scanD_nat a (a := []) (r := ' ' :: (Nat.toDigits 10 b ++ ['\n'])) (by simp) (.blank _)
  have h2 := scanD_nat b (a := [' ']) (r := ['\n']) (by decide) (.inr ⟨_, _, rfl, by decide⟩)
  rw [List.nil_append] at h1
  rw [List.singleton_append] at h2
  unfold readState stateText
  rw [h1]
  simp only [h2]
  rw [if_neg (by omega)]
  simp

theorem postprocess_take {α : Type} (T : ℝ) (levels : List PLevel) (info : List PInfo) (samples : List α)
    (draws : List (ℕ × ℝ)) (n : ℕ) (hn : info.length = n) (h : n ≤ samples.length) :
    postprocess T levels info (samples.take n) draws = postprocess T levels info samples draws := by
  subst hn
  have : readLines info.length (samples.take info.length) = readLines info.length samples := by
    unfold readLines
    rw [if_neg (by simp; omega), if_neg (by omega), List.take_take, Nat.min_self]
  unfold postprocess
  rw [this]

/-- **C103.** The post-processing of the files as the sampler writes them is the post-processing of the numbers in them:
log X and the thresholds to 12 digits, the log-likelihoods to 7 digits, tiebreakers and parameters to 6 decimals; every
row of every file is read as the row that was written, and the level assignments exactly. -/
theorem C103_files (T : ℝ) (np : ℕ) (hnp : 0 < np) (ls : List LevelRow) (hl : ∀ l ∈ ls, l.Fits) (ss : List SavedRow)
    (hs : ∀ s ∈ ss, s.Fits ∧ s.par.length = np) (nl ns : ℕ) (hnl : nl ≤ ls.length) (hns : ns ≤ ss.length)
    (draws : List (ℕ × ℝ)) :
    postprocessText T np (stateText nl ns) (levelsText ls) (infoText ss) (sampleText (ss.map (·.par))) draws =
      postprocessFile T nl ns (ls.map (·.printed)) (ss.map (·.printed)) (ss.map fun s => s.par.map rd6) draws := by
  have e1 : (fgetsBuf [] (levelsText ls)).2 = (ls.map fun l => levelLine l ++ ['\n']).flatten := by
    rw [levelsText, fgetsBuf_line (by decide) (by decide)]
  have e2 : (fgetsBuf [] (infoText ss)).2 = (ss.map fun s => infoLine s ++ ['\n']).flatten := by
    rw [infoText, fgetsBuf_line (by decide) (by decide)]
  have e3 : (fgetsBuf [] (sampleText (ss.map (·.par)))).2 = ((ss.map (·.par)).map particleText).flatten := by
    have := fgetsBuf_line (buf := []) (l := ['#', ' ']) (rest := ((ss.map (·.par)).map particleText).flatten) (by decide) (by decide)
    rw [sampleText]
    exact congrArg Prod.snd this
  have r1 := readThree_lines (g := fun l : LevelRow => (sciVal 11 l.logX, sciVal 11 l.logl, rd6 l.tie)) ls
    (fun l hl' => levelLine_line (hl l hl')) (fun l => scan3_level l _) nl
  have r2 := readThree_lines (g := fun s : SavedRow => ((s.level : ℝ), sciVal 6 s.logl, rd6 s.tie)) ss
    (fun s hs' => infoLine_line (hs s hs').1) (fun s => scan3_info s _) ns
  have r3 := readParticles_text (np := np) (ss.map (·.par)) (by
    intro p hp
    obtain ⟨s, hs', rfl⟩ := List.mem_map.1 hp
    exact (hs s hs').2) hnp ns (a := []) (by simp)
  rw [List.nil_append] at r3
  rw [if_neg (by omega)] at r1 r2
  rw [if_neg (by simp; omega)] at r3
  unfold postprocessText postprocessFile
  rw [readState_text]
  simp only [Res.ok_bind]
  rw [e1, e2, e3, r1, r2, r3]
  simp only [Res.ok_bind]
  rw [readLines, if_neg (by simp; omega), readLines, if_neg (by simp; omega)]
  simp only [Res.ok_bind]
  rw [← postprocess_take T _ _ (ss.map fun s => s.par.map rd6) draws ns (by simp; omega) (by simp; omega)]
  simp only [← List.map_take, List.map_map, Function.comp_def, Nat.floor_natCast]
  rfl

/-- If a file ends before the number of rows that the state file tells, the program stops. -/
theorem C103_short (T : ℝ) (np : ℕ) (hnp : 0 < np) (ls : List LevelRow) (hl : ∀ l ∈ ls, l.Fits) (ss : List SavedRow)
    (hs : ∀ s ∈ ss, s.Fits ∧ s.par.length = np) (ps : List (List ℝ)) (hps : ∀ p ∈ ps, p.length = np) (nl ns : ℕ)
    (h : ls.length < nl ∨ ss.length < ns ∨ ps.length < ns) (draws : List (ℕ × ℝ)) :
    postprocessText T np (stateText nl ns) (levelsText ls) (infoText ss) (sampleText ps) draws = .exit := by
  have e1 : (fgetsBuf [] (levelsText ls)).2 = (ls.map fun l => levelLine l ++ ['\n']).flatten := by
    rw [levelsText, fgetsBuf_line (by decide) (by decide)]
  have e2 : (fgetsBuf [] (infoText ss)).2 = (ss.map fun s => infoLine s ++ ['\n']).flatten := by
    rw [infoText, fgetsBuf_line (by decide) (by decide)]
  have e3 : (fgetsBuf [] (sampleText ps)).2 = (ps.map particleText).flatten := by
    have := fgetsBuf_line (buf := []) (l := ['#', ' ']) (rest := (ps.map particleText).flatten) (by decide) (by decide)
    rw [sampleText]
    exact congrArg Prod.snd this
  have r1 := readThree_lines (g := fun l : LevelRow => (sciVal 11 l.logX, sciVal 11 l.logl, rd6 l.tie)) ls
    (fun l hl' => levelLine_line (hl l hl')) (fun l => scan3_level l _) nl
  have r2 := readThree_lines (g := fun s : SavedRow => ((s.level : ℝ), sciVal 6 s.logl, rd6 s.tie)) ss
    (fun s hs' => infoLine_line (hs s hs').1) (fun s => scan3_info s _) ns
  have r3 := readParticles_text (np := np) ps hps hnp ns (a := []) (by simp)
  rw [List.nil_append] at r3
  unfold postprocessText
  rw [readState_text]
  simp only [Res.ok_bind]
  rw [e1, e2, e3, r1, r2, r3]
  by_cases h1 : ls.length < nl
  · rw [if_pos h1]; rfl
  by_cases h2 : ss.length < ns
  · rw [if_neg h1, if_pos h2]; rfl
  · rw [if_neg h1, if_neg h2, if_pos (by omega)]; rfl

/-- The file of posterior samples is read as it was written, if the numbers were read from a file before. -/
theorem readPostText_text {np : ℕ} (hnp : 0 < np) (ps : List (List ℝ)) (h : ∀ p ∈ ps, p.length = np) :
    readPostText np (postText ps) = .ok (ps.map fun p => p.map rd6) := by
  have h1 := scanD_nat ps.length (a := [' ']) (r := '\n' :: (ps.map particleText).flatten) (by decide) (.inr ⟨_, _, rfl, by decide⟩)
  have h2 := readParticles_text ps h hnp ps.length (a := ['\n']) (by decide)
  rw [List.singleton_append] at h1 h2
  rw [if_neg (by omega), List.take_length] at h2
  unfold readPostText postText
  simp only [h1]
  rw [if_neg (by omega), Int.toNat_natCast, h2]

/-- **C103.** From the particle to the programs that use it: each posterior sample that these programs read is a
particle that was saved, with every parameter to six decimals — passing through two files costs no more than passing
through one.  Order between parameters (of the lags of the components, say) is kept, and ranges whose ends have six
decimals. -/
theorem C103_use (T : ℝ) (np : ℕ) (hnp : 0 < np) (ls : List LevelRow) (hl : ∀ l ∈ ls, l.Fits) (ss : List SavedRow)
    (hs : ∀ s ∈ ss, s.Fits ∧ s.par.length = np) (nl ns : ℕ) (draws : List (ℕ × ℝ)) (hu : ∀ d ∈ draws, 0 ≤ d.2 ∧ d.2 < 1)
    (out : PostOut (List ℝ))
    (h : postprocessText T np (stateText nl ns) (levelsText ls) (infoText ss) (sampleText (ss.map (·.par))) draws = .ok out) :
    ∃ rows, readPostText np (postText out.post) = .ok rows ∧ rows = out.post ∧
      ∀ (k : ℕ) (row : List ℝ), rows[k]? = some row → ∃ (w : ℕ) (s : SavedRow), w < ns ∧ ss[w]? = some s ∧ row.length = np ∧
        out.postInfo[k]? = some (sciVal 6 s.logl / T) ∧
        List.Forall₂ (fun y x => |y - x| ≤ 1 / 2 / 10 ^ 6) row s.par ∧
        (∀ (i j : ℕ) (x x' y y' : ℝ), s.par[i]? = some x → s.par[j]? = some x' → row[i]? = some y → row[j]? = some y' → x ≤ x' → y ≤ y') ∧
        (∀ (i : ℕ) (x y lo hi : ℝ), s.par[i]? = some x → row[i]? = some y → lo ≤ x → x ≤ hi →
          (∃ a : ℤ, lo = a / 10 ^ 6) → (∃ b : ℤ, hi = b / 10 ^ 6) → lo ≤ y ∧ y ≤ hi) := by
  have hnl : nl ≤ ls.length := by
    by_contra hc
    have := C103_short T np hnp ls hl ss hs (ss.map (·.par)) (by
      intro p hp
      obtain ⟨s, hs', rfl⟩ := List.mem_map.1 hp
      exact (hs s hs').2) nl ns (.inl (by omega)) draws
    rw [this] at h; cases h
  have hns : ns ≤ ss.length := by
    by_contra hc
    have := C103_short T np hnp ls hl ss hs (ss.map (·.par)) (by
      intro p hp
      obtain ⟨s, hs', rfl⟩ := List.mem_map.1 hp
      exact (hs s hs').2) nl ns (.inr (.inl (by omega))) draws
    rw [this] at h; cases h
  rw [C103_files T np hnp ls hl ss hs nl ns hnl hns draws] at h
  unfold postprocessFile at h
  rw [readLines, if_neg (by simp; omega), readLines, if_neg (by simp; omega)] at h
  simp only [Res.ok_bind] at h
  have key : ∀ (k : ℕ) (row : List ℝ), out.post[k]? = some row → ∃ (w : ℕ) (s : SavedRow), w < ns ∧ ss[w]? = some s ∧ row = s.par.map rd6 ∧
      out.postInfo[k]? = some (sciVal 6 s.logl / T) := by
    intro k row hk
    obtain ⟨w, p, u, lx, wt, h1, h2, h3, h4, -⟩ := C22_samples T _ _ _ draws hu out h k row hk
    simp only [List.length_map, List.length_take] at h1
    have hw : w < ss.length := by omega
    rw [List.getElem?_map, List.getElem?_eq_getElem hw] at h2
    refine ⟨w, ss[w], by omega, List.getElem?_eq_getElem hw, (by simpa using h2.symm), ?_⟩
    rw [List.getElem?_map, List.getElem?_take, if_pos (by omega), List.getElem?_map, List.getElem?_eq_getElem hw] at h3
    simp only [Option.map_some, Option.some.injEq] at h3
    rw [h4, ← h3]
    unfold clampInfo
    split <;> rfl
  have hlen : ∀ p ∈ out.post, p.length = np := by
    intro p hp
    obtain ⟨k, hk, rfl⟩ := List.mem_iff_getElem.1 hp
    obtain ⟨w, s, -, h2, h3, -⟩ := key k _ (List.getElem?_eq_getElem hk)
    rw [h3, List.length_map]
    exact (hs s (List.mem_of_getElem? h2)).2
  have hrd : out.post.map (fun p => p.map rd6) = out.post := by
    conv_rhs => rw [← List.map_id out.post]
    refine List.map_congr_left fun p hp => ?_
    obtain ⟨k, hk, rfl⟩ := List.mem_iff_getElem.1 hp
    obtain ⟨w, s, -, h2, h3, -⟩ := key k _ (List.getElem?_eq_getElem hk)
    rw [h3, List.map_map]
    exact List.map_congr_left fun x _ => rd6_idem x
  refine ⟨out.post, by rw [readPostText_text hnp _ hlen, hrd], rfl, fun k row hk => ?_⟩
  obtain ⟨w, s, h1, h2, h3, h4⟩ := key k row hk
  refine ⟨w, s, h1, h2, hlen row (List.mem_of_getElem? hk), h4, ?_, ?_, ?_⟩
  · rw [h3, List.forall₂_map_left_iff, List.forall₂_same]
    exact fun x _ => rd6_near x
  · intro i j x x' y y' hx hx' hy hy' hle
    rw [h3, List.getElem?_map, hx] at hy
    rw [h3, List.getElem?_map, hx'] at hy'
    cases hy; cases hy'
    exact rd6_mono hle
  · intro i x y lo hi hx hy hlo hhi ha hb
    rw [h3, List.getElem?_map, hx] at hy
    cases hy
    have fix : ∀ v : ℝ, (∃ a : ℤ, v = a / 10 ^ 6) → rd6 v = v := by
      rintro v ⟨a, rfl⟩
      have e : (micro ((a : ℝ) / 10 ^ 6) : ℝ) = |(a : ℝ)| := by
        have : micro ((a : ℝ) / 10 ^ 6) = a.natAbs := by
          unfold micro
          rw [abs_div, abs_of_pos (by norm_num : (0 : ℝ) < 10 ^ 6), div_mul_cancel₀ _ (by norm_num)]
          rw [Nat.floor_eq_iff (by positivity), Nat.cast_natAbs]
          push_cast
          constructor <;> linarith
        rw [this, Nat.cast_natAbs]
        push_cast
        rfl
      unfold rd6
      rw [e]
      split
      · rename_i hneg
        have : (a : ℝ) < 0 := by
          by_contra hc
          push Not at hc
          have : (0 : ℝ) ≤ (a : ℝ) / 10 ^ 6 := by positivity
          linarith
        rw [abs_of_neg this]; ring
      · rename_i hneg
        have : (0 : ℝ) ≤ a := by
          by_contra hc
          push Not at hc
          have : (a : ℝ) / 10 ^ 6 < 0 := div_neg_of_neg_of_pos hc (by norm_num)
          exact hneg this
        rw [abs_of_nonneg this]
    have m1 := rd6_mono hlo
    have m2 := rd6_mono hhi
    rw [fix lo ha] at m1
    rw [fix hi hb] at m2
    exact ⟨m1, m2⟩

/-- **C103.** Twelve digits of log X are enough: if each log X is below the one before by more than one part in 10¹¹, they are
strictly decreasing in the file too, and the post-processing of the files ends with a result. -/
theorem C103_good (T : ℝ) (np : ℕ) (hnp : 0 < np) (ls : List LevelRow) (hl : ∀ l ∈ ls, l.Fits) (ss : List SavedRow)
    (hs : ∀ s ∈ ss, s.Fits ∧ s.par.length = np) (nl ns : ℕ) (hnl : nl ≤ ls.length) (hns : ns ≤ ss.length)
    (h1 : 0 < nl) (h2 : 0 < ns) (hX : ∀ l ∈ ls, -(10 : ℝ) ^ 299 < l.logX ∧ l.logX ≤ 0)
    (hd : ls.Pairwise fun a b => b.logX < a.logX - 1 / 10 ^ 11 * |b.logX|)
    (draws : List (ℕ × ℝ)) (hr : ∀ d ∈ draws, d.1 < ns ∧ 0 ≤ d.2 ∧ d.2 < 1)
    (hmany : ∀ w < ns, ns ≤ draws.countP (fun d => d.1 = w)) :
    ∃ out, postprocessText T np (stateText nl ns) (levelsText ls) (infoText ss) (sampleText (ss.map (·.par))) draws = .ok out := by
  have e11 : (10 : ℝ) ^ (-((11 : ℕ) : ℤ)) = 1 / 10 ^ 11 := by norm_num
  rw [C103_files T np hnp ls hl ss hs nl ns hnl hns draws]
  refine (C22_file T nl ns _ _ _ draws h1 h2 ?_ (by simpa using hns) hr hmany).1 (by simpa using hnl) (by simpa using hns)
  constructor
  · refine List.pairwise_map.2 (hd.imp_of_mem fun {a b} ha hb hab => ?_)
    have na := abs_le.1 (sciVal_near 11 a.logX)
    have nb := abs_le.1 (sciVal_near 11 b.logX)
    rw [e11] at na nb
    have a0 := (hX a ha).2
    have b0 := (hX b hb).2
    rw [abs_of_nonpos a0] at na
    rw [abs_of_nonpos b0] at nb hab
    show sciVal 11 b.logX < sciVal 11 a.logX
    linarith [na.1, nb.2]
  · intro l hl'
    obtain ⟨r, hr', rfl⟩ := List.mem_map.1 hl'
    have nr := abs_le.1 (sciVal_near 11 r.logX)
    rw [e11, abs_of_nonpos (hX r hr').2] at nr
    have := (hX r hr').1
    show logXFloor < sciVal 11 r.logX
    unfold logXFloor
    have e : (10 : ℝ) ^ 300 = 10 * 10 ^ 299 := by rw [← pow_succ']
    have h0 : (0 : ℝ) < 10 ^ 299 := by positivity
    rw [e]
    have nr1 := nr.1
    generalize (10 : ℝ) ^ 299 = t at this h0 ⊢
    linarith

/-- A run with two levels and three saved particles: the hypotheses of C103 are met. -/
noncomputable def exLevelRows : List LevelRow := [⟨0, -10, 1 / 2, 5, 7, 3, 4⟩, ⟨-1, 0, 1 / 3, 1, 2, 3, 4⟩]
noncomputable def exSaved : List SavedRow :=
  [⟨[-2, 1 / 3], 0, -5, 1 / 2, 0⟩, ⟨[1 / 7, 1 / 3], 0, -3, 1 / 3, 1⟩, ⟨[-1, 1], 1, 2, 1 / 4, 0⟩]

theorem threeDigitExp_of {x : ℝ} (h1 : 1 ≤ |x|) (h2 : |x| ≤ 10) : ThreeDigitExp x := by
  right
  constructor
  · refine le_trans ?_ h1
    rw [zpow_neg]
    exact inv_le_one_of_one_le₀ (one_le_zpow₀ (by norm_num) (by norm_num))
  · calc |x| ≤ 10 := h2
      _ = (10 : ℝ) ^ (1 : ℤ) := by norm_num
      _ < _ := zpow_lt_zpow_right₀ (by norm_num) (by norm_num)

theorem exLevelRows_fits : ∀ l ∈ exLevelRows, l.Fits := by
  intro l hl
  simp only [exLevelRows, List.mem_cons, List.not_mem_nil, or_false] at hl
  rcases hl with rfl | rfl
  · exact ⟨.inl rfl, threeDigitExp_of (by norm_num) (by norm_num), by norm_num [abs_lt], by norm_num⟩
  · exact ⟨threeDigitExp_of (by norm_num) (by norm_num), .inl rfl, by norm_num [abs_lt], by norm_num⟩

theorem exSaved_fits : ∀ s ∈ exSaved, s.Fits ∧ s.par.length = 2 := by
  intro l hl
  simp only [exSaved, List.mem_cons, List.not_mem_nil, or_false] at hl
  rcases hl with rfl | rfl | rfl <;>
  exact ⟨⟨threeDigitExp_of (by norm_num) (by norm_num), by norm_num [abs_lt], by norm_num⟩, rfl⟩

theorem ex_files : ∃ out, postprocessText 1 2 (stateText 2 3) (levelsText exLevelRows) (infoText exSaved)
    (sampleText (exSaved.map (·.par))) exPDraws = .ok out := by
  refine C103_good 1 2 (by norm_num) _ exLevelRows_fits _ exSaved_fits 2 3 (by simp [exLevelRows]) (by simp [exSaved])
    (by norm_num) (by norm_num) ?_ ?_ exPDraws ?_ ?_
  · have h10 : (1 : ℝ) < 10 ^ 299 := one_lt_pow₀ (by norm_num) (by norm_num)
    intro l hl
    simp only [exLevelRows, List.mem_cons, List.not_mem_nil, or_false] at hl
    generalize (10 : ℝ) ^ 299 = t at *
    rcases hl with rfl | rfl <;> constructor <;> simp only <;> linarith
  · simp only [exLevelRows, List.pairwise_cons, List.mem_singleton, List.not_mem_nil]
    refine ⟨?_, by simp, .nil⟩
    rintro l rfl
    norm_num
  · intro d hd
    simp only [exPDraws, List.mem_cons, List.not_mem_nil, or_false] at hd
    rcases hd with rfl | rfl | rfl | rfl | rfl | rfl | rfl | rfl | rfl <;> norm_num
  · intro w hw
    interval_cases w <;> simp [exPDraws]

example : ∃ out rows, postprocessText 1 2 (stateText 2 3) (levelsText exLevelRows) (infoText exSaved)
    (sampleText (exSaved.map (·.par))) exPDraws = .ok out ∧ readPostText 2 (postText out.post) = .ok rows ∧ rows = out.post := by
  obtain ⟨out, h⟩ := ex_files
  have hu : ∀ d ∈ exPDraws, 0 ≤ d.2 ∧ d.2 < 1 := by
    intro d hd
    simp only [exPDraws, List.mem_cons, List.not_mem_nil, or_false] at hd
    rcases hd with rfl | rfl | rfl | rfl | rfl | rfl | rfl | rfl | rfl <;> norm_num
  obtain ⟨rows, h1, h2, -⟩ := C103_use 1 2 (by norm_num) _ exLevelRows_fits _ exSaved_fits 2 3 exPDraws hu out h
  exact ⟨out, rows, h, h1, h2⟩

example : postprocessText 1 2 (stateText 2 4) (levelsText exLevelRows) (infoText exSaved)
    (sampleText (exSaved.map (·.par))) exPDraws = .exit :=
  C103_short 1 2 (by norm_num) _ exLevelRows_fits _ exSaved_fits _ (by simp [exSaved]) 2 4 (by simp [exSaved]) _

end Mica
