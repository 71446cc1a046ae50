import Verif.Model.PySetup
import Verif.Proof.Options
import Verif.Proof.OptNum
import Verif.Proof.PyText

/-! # Proofs about the parameter file of the Python interface -/

namespace Mica

/-- Tags that may stand in the file, in its order, with the members they belong to. -/
def fileTags : List (String × String) :=
  [("FileDir", "file_dir"), ("DataFile", "data_file"), ("TypeModel", "model"), ("TypeTF", "type_tf"),
   ("StrTypeTFMix", "str_type_tf_mix"), ("MaxNumberSaves", "max_num_saves"),
   ("FlagUniformVarParams", "flag_uniform_var_params"), ("FlagUniformTranFuns", "flag_uniform_tranfuns"),
   ("FlagLongtermTrend", "flag_trend"), ("LagLimitLow", "lag_limit_low"), ("LagLimitUpp", "lag_limit_upper"),
   ("WidthLimitLow", "width_limit_low"), ("WidthLimitUpp", "width_limit_upper"),
   ("FlagLagPositivity", "flag_lag_posivity"), ("FlagNegativeResp", "flag_negative_resp"),
   ("NumCompLow", "num_gaussian_low"), ("NumCompUpp", "num_gaussian_upper"), ("FlagConSysErr", "flag_con_sys_err"),
   ("FlagLineSysErr", "flag_line_sys_err"), ("NumPointRec", "nd_rec"), ("TimeRecLowExt", "trec_low_ext"),
   ("TimeRecUppExt", "trec_upp_ext"), ("StrWidthPrior", "str_width_prior"), ("TypeLagPrior", "type_lag_prior"),
   ("StrLagPrior", "str_lag_prior"), ("StrRatioPrior", "str_ratio_prior"), ("FlagGap", "flag_gap"),
   ("StrGapPrior", "str_gap_prior")]

theorem fileTags_nodup : (fileTags.map Prod.fst).Nodup := by decide +kernel

theorem fileTags_fields_nodup : (fileTags.map Prod.snd).Nodup := by decide +kernel

theorem fileTags_field : ∀ q ∈ fileTags, fieldOf parTags q.1.toList = some q.2 := by decide +kernel

theorem fileTags_known : ∀ q ∈ fileTags, q.1.toList ∈ parTags.map TagEntry.tag := by decide +kernel

theorem fileTags_word : ∀ q ∈ fileTags, q.1.toList ≠ [] ∧ (∀ c ∈ q.1.toList, isSpaceC c = false) ∧
    parComment (q.1.toList.headD ' ') = false ∧ q.1.length ≤ 29 := by decide +kernel

theorem ite_sublist {α : Type} (c : Prop) [Decidable c] (l : List α) : List.Sublist (if c then l else []) l := by
  split
  · exact List.Sublist.refl _
  · exact List.nil_sublist _

theorem map_ite_nil {α β : Type} (f : α → β) (c : Prop) [Decidable c] (l : List α) :
    (if c then l else []).map f = if c then l.map f else [] := by
  split <;> rfl

/-- The tags of the file are some of those, in order. -/
theorem paramEntries_tags (num : ℝ → List Char) (p : PyParset) :
    List.Sublist ((paramEntries num p).map Prod.fst) (fileTags.map Prod.fst) := by
  have e : fileTags.map Prod.fst =
    ["FileDir", "DataFile", "TypeModel", "TypeTF", "StrTypeTFMix", "MaxNumberSaves", "FlagUniformVarParams",
     "FlagUniformTranFuns", "FlagLongtermTrend"] ++ ["LagLimitLow", "LagLimitUpp"] ++ ["WidthLimitLow"] ++ ["WidthLimitUpp"] ++
    ["FlagLagPositivity", "FlagNegativeResp", "NumCompLow", "NumCompUpp", "FlagConSysErr", "FlagLineSysErr", "NumPointRec",
     "TimeRecLowExt", "TimeRecUppExt"] ++ ["StrWidthPrior"] ++ ["TypeLagPrior"] ++ ["StrLagPrior"] ++ ["StrRatioPrior"] ++
    ["FlagGap"] ++ ["StrGapPrior"] := rfl
  rw [e]
  unfold paramEntries
  simp only [List.map_append, map_ite_nil, List.map_cons, List.map_nil]
  repeat' first
    | exact List.Sublist.refl _
    | exact ite_sublist _ _
    | apply List.Sublist.append

/-- The settings that have a value, as pairs of texts. -/
noncomputable def fileEntries (num : ℝ → List Char) (p : PyParset) : List (List Char × List Char) :=
  ((paramEntries num p).filter fun e => decide (e.2 ≠ [])).map fun e => (e.1.toList, e.2)

theorem toList_inj {s t : String} (h : s.toList = t.toList) : s = t := String.ext h

theorem fileEntries_nodup (num : ℝ → List Char) (p : PyParset) : ((fileEntries num p).map Prod.fst).Nodup := by
  have h : ((paramEntries num p).map Prod.fst).Nodup := (paramEntries_tags num p).nodup fileTags_nodup
  have h2 : (((paramEntries num p).filter fun e => decide (e.2 ≠ [])).map Prod.fst).Nodup :=
    (List.filter_sublist.map _).nodup h
  have h3 := h2.map (f := String.toList) (fun a b hab => toList_inj hab)
  rw [List.map_map] at h3
  rw [fileEntries, List.map_map]
  exact h3

theorem mem_fileEntries {num : ℝ → List Char} {p : PyParset} {t : String} {v : List Char} :
    (t.toList, v) ∈ fileEntries num p ↔ (t, v) ∈ paramEntries num p ∧ v ≠ [] := by
  constructor
  · intro h
    obtain ⟨e, he, h2⟩ := List.mem_map.1 h
    obtain ⟨h3, h4⟩ := List.mem_filter.1 he
    obtain ⟨h5, h6⟩ := Prod.mk.inj h2
    subst h6
    rw [← toList_inj h5]
    exact ⟨h3, of_decide_eq_true h4⟩
  · rintro ⟨h1, h2⟩
    exact List.mem_map.2 ⟨(t, v), List.mem_filter.2 ⟨h1, by simpa using h2⟩, rfl⟩

theorem fileEntries_tag {num : ℝ → List Char} {p : PyParset} {e : List Char × List Char} (he : e ∈ fileEntries num p) :
    ∃ q ∈ fileTags, e.1 = q.1.toList := by
  obtain ⟨e', h1, rfl⟩ := List.mem_map.1 he
  have h2 : e'.1 ∈ (paramEntries num p).map Prod.fst := List.mem_map_of_mem (List.mem_filter.1 h1).1
  obtain ⟨q, hq, h3⟩ := List.mem_map.1 ((paramEntries_tags num p).subset h2)
  exact ⟨q, hq, by rw [h3]⟩

/-- The settings are accepted. -/
theorem fileEntries_ok (num : ℝ → List Char) (p : PyParset) : ∃ st, entLoop parTags [] (fileEntries num p) = .ok st := by
  refine (entLoop_nil_ok parTags_nodup).2 ⟨fun e he => ?_, fileEntries_nodup num p⟩
  obtain ⟨q, hq, h⟩ := fileEntries_tag he
  rw [h]
  exact fileTags_known q hq

/-- A member holds the text that stands behind its tag. -/
theorem fileField {num : ℝ → List Char} {p : PyParset} {st : Assigned}
    (hst : entLoop parTags [] (fileEntries num p) = .ok st) {q : String × String} (hq : q ∈ fileTags) (v : List Char) :
    fieldText parTags st q.2 = some v ↔ (q.1, v) ∈ paramEntries num p ∧ v ≠ [] := by
  rw [← mem_fileEntries, fieldText_stored parTags_nodup (entLoop_nil_stored hst)]
  have hf : ((fileEntries num p).filter fun e => fieldOf parTags e.1 == some q.2) =
      (fileEntries num p).filter fun e => decide (e.1 = q.1.toList) := by
    apply List.filter_congr
    intro e he
    obtain ⟨q', hq', h1⟩ := fileEntries_tag he
    rw [h1, fileTags_field q' hq', Bool.eq_iff_iff, beq_iff_eq, decide_eq_true_iff, Option.some.injEq]
    constructor
    · intro h2
      rw [List.inj_on_of_nodup_map fileTags_fields_nodup hq' hq h2]
    · intro h2
      rw [List.inj_on_of_nodup_map fileTags_nodup hq' hq (toList_inj h2)]
  rw [hf]
  have hn := fileEntries_nodup num p
  generalize fileEntries num p = es at hn
  constructor
  · intro h
    obtain ⟨e, he, rfl⟩ := Option.map_eq_some_iff.1 h
    have hm := List.mem_filter.1 (List.mem_of_getLast? he)
    rw [← of_decide_eq_true hm.2]
    exact hm.1
  · intro h
    have key : (es.filter fun e => decide (e.1 = q.1.toList)) = [(q.1.toList, v)] := by
      clear hf hst
      induction es with
      | nil => simp at h
      | cons e es ih =>
        rw [List.map_cons, List.nodup_cons] at hn
        rcases List.mem_cons.1 h with rfl | h'
        · rw [List.filter_cons_of_pos (by simp), List.filter_eq_nil_iff.2]
          intro e he
          simp only [decide_eq_true_eq]
          intro hh
          exact hn.1 (List.mem_map.2 ⟨e, he, hh⟩)
        · rw [List.filter_cons_of_neg, ih hn.2 h']
          simp only [decide_eq_true_eq]
          intro hh
          exact hn.1 (hh ▸ List.mem_map_of_mem (f := Prod.fst) h')
    rw [key]; rfl

theorem fileField_none {num : ℝ → List Char} {p : PyParset} {st : Assigned}
    (hst : entLoop parTags [] (fileEntries num p) = .ok st) {q : String × String} (hq : q ∈ fileTags)
    (h : ∀ v, (q.1, v) ∈ paramEntries num p → v = []) : fieldText parTags st q.2 = none := by
  cases hv : fieldText parTags st q.2 with
  | none => rfl
  | some v =>
    obtain ⟨h1, h2⟩ := (fileField hst hq v).1 hv
    exact absurd (h v h1) h2

/-- A member whose tag is not in the file is not set. -/
theorem otherField {num : ℝ → List Char} {p : PyParset} {st : Assigned}
    (hst : entLoop parTags [] (fileEntries num p) = .ok st) {f : String} (hf : f ∉ fileTags.map Prod.snd) :
    fieldText parTags st f = none := by
  rw [fieldText_stored parTags_nodup (entLoop_nil_stored hst)]
  have : ((fileEntries num p).filter fun e => fieldOf parTags e.1 == some f) = [] := by
    rw [List.filter_eq_nil_iff]
    intro e he
    obtain ⟨q', hq', h1⟩ := fileEntries_tag he
    rw [h1, fileTags_field q' hq', beq_iff_eq, Option.some.injEq]
    rintro rfl
    exact hf (List.mem_map_of_mem hq')
  rw [this]; rfl

/-- One word and blanks are no setting. -/
theorem twoWords_one (t : String) (k : ℕ) (hts : ∀ c ∈ t.toList, isSpaceC c = false) :
    twoWords (t.toList ++ (List.replicate k ' ' ++ [])) = none := by
  cases h : twoWords (t.toList ++ (List.replicate k ' ' ++ [])) with
  | none => rfl
  | some wv =>
    exfalso
    obtain ⟨w, v⟩ := wv
    rw [twoWords_eq_some] at h
    obtain ⟨a, b, rest, e, ha, hw, hws, hb, hbs, hv, hvs, -⟩ := h
    rw [List.append_nil] at e
    -- the first blank of `b` lies behind the word `t`, so `v` consists of blanks
    have hsplit : ∃ r, b ++ (v ++ rest) = r ∧ ∀ c ∈ r, c ∈ t.toList ∨ c = ' ' := by
      refine ⟨_, rfl, fun c hc => ?_⟩
      have : c ∈ t.toList ++ List.replicate k ' ' := by
        rw [e]; simp only [List.mem_append] at hc ⊢; tauto
      rcases List.mem_append.1 this with h1 | h1
      · exact Or.inl h1
      · exact Or.inr (List.eq_of_mem_replicate h1)
    have hdrop : (t.toList ++ List.replicate k ' ').dropWhile (fun c => !isSpaceC c) = List.replicate k ' ' := by
      rw [List.dropWhile_append_of_pos (by intro c hc; simp [hts c hc])]
      cases k with
      | zero => rfl
      | succ k => rw [List.replicate_succ, List.dropWhile_cons_of_neg (by decide)]
    cases a with
    | cons x a =>
      have hx := ha x (by simp)
      cases ht : t.toList with
      | nil =>
        rw [ht, List.nil_append] at e
        have : v ≠ [] := hv
        obtain ⟨y, v', rfl⟩ := List.exists_cons_of_ne_nil hv
        have hy : y ∈ List.replicate k ' ' := by rw [e]; simp
        rw [List.eq_of_mem_replicate hy] at hvs
        exact absurd (hvs ' ' (by simp)) (by decide)
      | cons y t' =>
        rw [ht] at e
        simp only [List.cons_append, List.cons.injEq] at e
        rw [← e.1] at hx
        rw [hts y (by rw [ht]; simp)] at hx
        cases hx
    | nil =>
      rw [List.nil_append] at e
      obtain ⟨y, b', rfl⟩ := List.exists_cons_of_ne_nil hb
      rw [e, List.dropWhile_append_of_pos (by intro c hc; simp [hws c hc])] at hdrop
      have hy := hbs y (by simp)
      rw [List.cons_append, List.dropWhile_cons_of_neg (by simp [hy])] at hdrop
      obtain ⟨z, v', rfl⟩ := List.exists_cons_of_ne_nil hv
      have hz : z ∈ List.replicate k ' ' := by rw [← hdrop]; simp
      rw [List.eq_of_mem_replicate hz] at hvs
      exact absurd (hvs ' ' (by simp)) (by decide)

/-- Entries of the lines of settings. -/
theorem entriesOf_padded (es : List (String × List Char)) (hq : ∀ e ∈ es, ∃ q ∈ fileTags, q.1 = e.1)
    (hv : ∀ e ∈ es, ∀ c ∈ e.2, isSpaceC c = false) :
    entriesOf parComment (es.map fun e => padded e.1 e.2) =
      (es.filter fun e => decide (e.2 ≠ [])).map fun e => (e.1.toList, e.2) := by
  induction es with
  | nil => rfl
  | cons e es ih =>
    obtain ⟨t, v⟩ := e
    obtain ⟨q, hq1, rfl⟩ := hq _ List.mem_cons_self
    have ih' := ih (fun e he => hq e (List.mem_cons_of_mem _ he)) fun e he => hv e (List.mem_cons_of_mem _ he)
    obtain ⟨h1, h2, h3, h4⟩ := fileTags_word q hq1
    have hk : 30 - q.1.length = (29 - q.1.length) + 1 := by omega
    rw [List.map_cons]
    by_cases h0 : v = []
    · subst h0
      rw [List.filter_cons_of_neg (by simp), ← ih', entriesOf, List.filterMap_cons]
      simp only [padded]
      rw [twoWords_one _ _ h2]
      rfl
    · rw [List.filter_cons_of_pos (by simpa using h0), List.map_cons, ← ih']
      simp only [padded]
      rw [hk]
      exact entriesOf_pair _ _ _ _ _ h1 h2 h3 h0 (hv (q.1, v) List.mem_cons_self)

/-- A line that begins with a comment sign. -/
theorem entriesOf_hash (s : List Char) (ls : List (List Char)) :
    entriesOf parComment (('#' :: s) :: ls) = entriesOf parComment ls := by
  rw [entriesOf, List.filterMap_cons]
  cases h : twoWords ('#' :: s) with
  | none => rfl
  | some wv =>
    obtain ⟨w, v⟩ := wv
    have hw : w.head? = some '#' := by
      have := (twoWords_eq_some).1 h
      exact entry_head this rfl
    cases w with
    | nil => simp at hw
    | cons c w =>
      simp only [List.head?_cons, Option.some.injEq] at hw
      subst hw
      rfl

theorem entriesOf_blank (ls : List (List Char)) : entriesOf parComment ([] :: ls) = entriesOf parComment ls := rfl

theorem entriesOf_head : entriesOf parComment paramHead = [] := by decide +kernel

theorem padded_hash (t : String) (v : List Char) (h : t.toList.head? = some '#') : ∃ s, padded t v = '#' :: s := by
  unfold padded
  cases ht : t.toList with
  | nil => simp [ht] at h
  | cons c r =>
    rw [ht, List.head?_cons, Option.some.injEq] at h
    exact ⟨_, by rw [h, List.cons_append]⟩

theorem entriesOf_allHash (ls : List (List Char)) (h : ∀ l ∈ ls, l = [] ∨ ∃ s, l = '#' :: s) : entriesOf parComment ls = [] := by
  induction ls with
  | nil => rfl
  | cons l ls ih =>
    have ih' := ih fun l hl => h l (List.mem_cons_of_mem _ hl)
    rcases h l List.mem_cons_self with rfl | ⟨s, rfl⟩
    · rw [entriesOf_blank, ih']
    · rw [entriesOf_hash, ih']

theorem str_hash (t : String) (h : t.toList.head? = some '#') : ∃ s, t.toList = '#' :: s := by
  cases ht : t.toList with
  | nil => simp [ht] at h
  | cons c r =>
    rw [ht, List.head?_cons, Option.some.injEq] at h
    exact ⟨_, by rw [h]⟩

theorem entriesOf_tail (num : ℝ → List Char) (o : SampOpts) : entriesOf parComment (paramTail num o) = [] := by
  apply entriesOf_allHash
  unfold paramTail
  simp only [List.forall_mem_cons, List.not_mem_nil, IsEmpty.forall_iff, implies_true, and_true]
  refine ⟨.inr (str_hash _ (by decide)), .inr (str_hash _ (by decide)), .inr (str_hash _ (by decide)), .inl trivial,
    .inr (padded_hash _ _ (by decide)), .inr (padded_hash _ _ (by decide)), .inr (padded_hash _ _ (by decide)),
    .inr (padded_hash _ _ (by decide)), .inr (padded_hash _ _ (by decide)), .inr (padded_hash _ _ (by decide)),
    .inr (padded_hash _ _ (by decide)), .inr (padded_hash _ _ (by decide)), .inr (str_hash _ (by decide))⟩

/-- Reading the whole file. -/
theorem readTags_param {num : ℝ → List Char} {p : PyParset}
    (hv : ∀ e ∈ paramEntries num p, (∀ c ∈ e.2, isSpaceC c = false) ∧ e.2.length ≤ 168)
    (ho : ∀ l ∈ paramTail num p.opts, FitsLine l) :
    readTags parComment parTags (paramText num p) = entLoop parTags [] (fileEntries num p) := by
  have htag : ∀ e ∈ paramEntries num p, ∃ q ∈ fileTags, q.1 = e.1 := by
    intro e he
    obtain ⟨q, hq, h⟩ := List.mem_map.1 ((paramEntries_tags num p).subset (List.mem_map_of_mem (f := Prod.fst) he))
    exact ⟨q, hq, h⟩
  have hfits : ∀ l ∈ paramLines num p, '\n' ∉ l ∧ l.length ≤ 198 := by
    intro l hl
    unfold paramLines at hl
    rw [List.mem_append, List.mem_append] at hl
    rcases hl with (hl | hl) | hl
    · revert l
      show ∀ l ∈ paramHead, '\n' ∉ l ∧ l.length ≤ 198
      decide +kernel
    · obtain ⟨e, he, rfl⟩ := List.mem_map.1 hl
      obtain ⟨q, hq, h1⟩ := htag e he
      obtain ⟨-, h2, -, h3⟩ := fileTags_word q hq
      obtain ⟨h4, h5⟩ := hv e he
      rw [h1] at h2 h3
      constructor
      · unfold padded
        simp only [List.mem_append, not_or]
        refine ⟨nonspace_newline h2, fun h => ?_, nonspace_newline h4⟩
        exact absurd (List.eq_of_mem_replicate h) (by decide)
      · unfold padded
        simp only [List.length_append, List.length_replicate, String.length_toList]
        omega
    · exact ho l hl
  have h := readTags_text parComment parTags (paramLines num p) [] hfits (by simp)
  have e1 : paramText num p = textOf (paramLines num p) [] := by
    rw [paramText, ← closed_textOf, List.append_nil]
  rw [e1, h]
  congr 1
  have : allLines (paramLines num p) [] = paramLines num p := by simp [allLines]
  rw [this, paramLines, entriesOf_append, entriesOf_append, entriesOf_head, entriesOf_tail, List.nil_append, List.append_nil,
    entriesOf_padded _ htag fun e he => (hv e he).1]
  rfl

end Mica
