import Verif.Model.PyPost
import Verif.Proof.Postprocess
import Mathlib.Analysis.SpecialFunctions.Log.Basic
import Mathlib.Data.List.Sort

/-!
Steps towards the agreement of the two post-processing programs.
-/

namespace Mica

/-! ### Sandwiching levels -/

theorem sandwichGo_below (logl : ℝ) (ls : List PLevel) (j acc : ℕ) (h : ∀ l ∈ ls, ¬ l.logl < logl) :
    sandwichGo logl j acc ls = acc := by
  induction ls generalizing j acc with
  | nil => rfl
  | cons l ls ih =>
    rw [sandwichGo, if_neg (h l (by simp))]
    exact ih _ _ fun x hx => h x (by simp [hx])

theorem sandwichGo_climb (p : PInfo) (ls : List PyLevel) (s : ℕ) (hs : ls.Pairwise fun a b => a.1.logl ≤ b.1.logl)
    (ht : ∀ l ∈ ls, p.logl ≠ l.1.logl) : sandwichGo p.logl (s + 1) s (ls.map Prod.fst) = pyClimb p s ls := by
  induction ls generalizing s with
  | nil => rfl
  | cons l ls ih =>
    obtain ⟨h1, h2⟩ := List.pairwise_cons.1 hs
    rw [List.map_cons, sandwichGo, pyClimb]
    have hne := ht l (by simp)
    by_cases h : l.1.logl < p.logl
    · rw [if_pos h, if_pos (Or.inl h)]
      exact ih _ h2 fun x hx => ht x (by simp [hx])
    · rw [if_neg h, if_neg (by rintro (h' | ⟨h', _⟩); exacts [h h', hne h'])]
      refine sandwichGo_below _ _ _ _ fun x hx => ?_
      obtain ⟨y, hy, rfl⟩ := List.mem_map.1 hx
      have := h1 y hy
      linarith

theorem sandwich_py (levels : List PyLevel) (p : PInfo) (hlev : p.level < levels.length)
    (hs : levels.Pairwise fun a b => a.1.logl ≤ b.1.logl) (ht : ∀ l ∈ levels, p.logl ≠ l.1.logl) :
    sandwich (levels.map Prod.fst) p = pySandwich levels p := by
  unfold sandwich pySandwich
  rw [← List.map_drop, List.drop_eq_getElem_cons hlev, List.map_cons, sandwichGo]
  rw [show (if p.logl > levels[p.level].1.logl then p.level else p.level) = p.level by split <;> rfl]
  exact sandwichGo_climb p _ _ (hs.sublist (List.drop_sublist _ _)) fun l hl => ht l (List.mem_of_mem_drop hl)

/-! ### The two ways of sorting -/

theorem tupleLe_trans {a b c : PSample} (h1 : tupleLe a b) (h2 : tupleLe b c) : tupleLe a c := by
  unfold tupleLe at *
  rcases h1 with h1 | ⟨h1, h1'⟩ <;> rcases h2 with h2 | ⟨h2, h2'⟩
  · exact Or.inl (h1.trans h2)
  · exact Or.inl (h2 ▸ h1)
  · exact Or.inl (h1 ▸ h2)
  · refine Or.inr ⟨h1.trans h2, ?_⟩
    rcases h1' with h1' | ⟨h1', h1''⟩ <;> rcases h2' with h2' | ⟨h2', h2''⟩
    · exact Or.inl (h1'.trans h2')
    · exact Or.inl (h2' ▸ h1')
    · exact Or.inl (h1' ▸ h2')
    · exact Or.inr ⟨h1'.trans h2', h1''.trans h2''⟩

theorem tupleLe_total (a b : PSample) : tupleLe a b ∨ tupleLe b a := by
  unfold tupleLe
  rcases lt_trichotomy a.logl b.logl with h | h | h
  · exact Or.inl (Or.inl h)
  · rcases lt_trichotomy a.tie b.tie with h' | h' | h'
    · exact Or.inl (Or.inr ⟨h, Or.inl h'⟩)
    · rcases le_total a.id b.id with h'' | h''
      · exact Or.inl (Or.inr ⟨h, Or.inr ⟨h', h''⟩⟩)
      · exact Or.inr (Or.inr ⟨h.symm, Or.inr ⟨h'.symm, h''⟩⟩)
    · exact Or.inr (Or.inr ⟨h.symm, Or.inl h'⟩)
  · exact Or.inr (Or.inl h)

theorem tupleLe_antisymm {a b : PSample} (h1 : tupleLe a b) (h2 : tupleLe b a) : a = b := by
  cases a; cases b
  simp only [tupleLe] at h1 h2
  rcases h1 with h1 | ⟨h1, h1' | ⟨h1', h1''⟩⟩ <;> rcases h2 with h2 | ⟨h2, h2' | ⟨h2', h2''⟩⟩ <;>
    first
    | (subst h1; subst h1'; simp only [PSample.mk.injEq, true_and]; omega)
    | (exfalso; linarith)

theorem cmpSample_le {a b : PSample} (h : cmpSample a b ≤ 0) (hid : a.id ≤ b.id) : tupleLe a b := by
  unfold cmpSample at h
  split at h
  · norm_num at h
  · split at h
    · norm_num at h
    · rename_i h1 h2
      rcases lt_or_eq_of_le (not_lt.1 h1) with h3 | h3
      · exact Or.inl h3
      · rcases lt_or_eq_of_le (not_lt.1 fun h4 => h2 ⟨h3, h4⟩) with h4 | h4
        · exact Or.inr ⟨h3, Or.inl h4⟩
        · exact Or.inr ⟨h3, Or.inr ⟨h4, hid⟩⟩

theorem cmpSample_gt {a b : PSample} (h : ¬ cmpSample a b ≤ 0) : tupleLe b a := by
  unfold cmpSample at h
  split at h
  · rename_i h1; exact Or.inl h1
  · split at h
    · rename_i h2; exact Or.inr ⟨h2.1.symm, Or.inl h2.2⟩
    · norm_num at h

theorem mergeC_tuple (l r : List PSample) (hl : l.Pairwise tupleLe) (hr : r.Pairwise tupleLe)
    (hid : ∀ a ∈ l, ∀ b ∈ r, a.id ≤ b.id) : (mergeC cmpSample l r).Pairwise tupleLe := by
  fun_induction mergeC cmpSample l r with
  | case1 r => exact hr
  | case2 l => exact hl
  | case3 a l b r h ih =>
    have hl' := List.pairwise_cons.1 hl
    refine List.pairwise_cons.2 ⟨?_, ih hl'.2 hr fun x hx y hy => hid x (by simp [hx]) y hy⟩
    have hab := cmpSample_le h (hid a (by simp) b (by simp))
    intro x hx
    rcases List.mem_append.1 ((mergeC_perm cmpSample l (b :: r)).mem_iff.1 hx) with hx' | hx'
    · exact hl'.1 x hx'
    · rcases List.mem_cons.1 hx' with rfl | hx'
      · exact hab
      · exact tupleLe_trans hab ((List.pairwise_cons.1 hr).1 x hx')
  | case4 a l b r h ih =>
    have hr' := List.pairwise_cons.1 hr
    refine List.pairwise_cons.2 ⟨?_, ih hl hr'.2 fun x hx y hy => hid x hx y (by simp [hy])⟩
    have hba := cmpSample_gt h
    intro x hx
    rcases List.mem_append.1 ((mergeC_perm cmpSample (a :: l) r).mem_iff.1 hx) with hx' | hx'
    · rcases List.mem_cons.1 hx' with rfl | hx'
      · exact hba
      · exact tupleLe_trans hba ((List.pairwise_cons.1 hl).1 x hx')
    · exact hr'.1 x hx'

theorem msortC_tuple (l : List PSample) (h : l.Pairwise fun a b => a.id ≤ b.id) : (msortC cmpSample l).Pairwise tupleLe := by
  induction hn : l.length using Nat.strong_induction_on generalizing l with
  | _ n ih =>
    rw [msortC]
    split
    · match l with
      | [] => simp
      | [a] => simp
      | _ :: _ :: _ => simp at *
    · have h0 := h
      rw [← List.take_append_drop (l.length / 2) l, List.pairwise_append] at h0
      refine mergeC_tuple _ _ (ih _ (by simp only [List.length_take]; omega) _ h0.1 rfl)
        (ih _ (by simp only [List.length_drop]; omega) _ h0.2.1 rfl) fun a ha b hb => ?_
      exact h0.2.2 a ((msortC_perm _ _).mem_iff.1 ha) b ((msortC_perm _ _).mem_iff.1 hb)

theorem membersOf_ids (info : List PInfo) (sw : List ℕ) (i : ℕ) : (membersOf info sw i).Pairwise fun a b => a.id ≤ b.id := by
  unfold membersOf
  rw [List.pairwise_map]
  have h : ((info.zip sw).zipIdx).Pairwise fun a b => a.2 < b.2 := by
    have := List.pairwise_map.1 (show (((info.zip sw).zipIdx).map Prod.snd).Pairwise (· < ·) by
      rw [List.zipIdx_map_snd]; exact List.pairwise_lt_range')
    exact this
  exact (h.sublist List.filter_sublist).imp fun hab => hab.le

/-- The merge sort of the C code and Python's `sorted` give the same order. -/
theorem msortC_eq_pySorted (info : List PInfo) (sw : List ℕ) (i : ℕ) :
    msortC cmpSample (membersOf info sw i) = pySorted (membersOf info sw i) := by
  classical
  have h1 := msortC_tuple _ (membersOf_ids info sw i)
  have h2 : (pySorted (membersOf info sw i)).Pairwise tupleLe := by
    have := List.pairwise_mergeSort (le := fun a b : PSample => decide (tupleLe a b))
      (fun a b c hab hbc => decide_eq_true (tupleLe_trans (of_decide_eq_true hab) (of_decide_eq_true hbc)))
      (fun a b => by simpa using tupleLe_total a b) (membersOf info sw i)
    unfold pySorted
    exact this.imp fun hab => of_decide_eq_true hab
  refine List.Perm.eq_of_pairwise ?_ h1 h2 ((msortC_perm _ _).trans (List.mergeSort_perm _ _).symm)
  intro a b _ _ hab hba
  exact tupleLe_antisymm hab hba

/-! ### Prior masses -/

theorem exp_umin {xmax xmin : ℝ} (h : xmin < xmax) : 0 < Real.exp (xmin - xmax) ∧ Real.exp (xmin - xmax) < 1 :=
  ⟨Real.exp_pos _, by rw [← Real.exp_zero]; exact Real.exp_lt_exp.2 (by linarith)⟩

theorem pyLogx_eq {xmax xmin : ℝ} (h : xmin < xmax) {n : ℕ} (hn : 2 ≤ n) :
    pyLogx xmax xmin n = ((List.range n).map fun (j : ℕ) => xmax + Real.log (Real.exp (xmin - xmax) +
      (1 - Real.exp (xmin - xmax)) * (((j : ℝ) + 1) / (n + 1)))).reverse := by
  classical
  obtain ⟨hu0, hu1⟩ := exp_umin h
  unfold pyLogx
  have hlin : linU n = (List.range n).map fun (j : ℕ) => ((j : ℝ) + 1) / (n + 1) := by
    unfold linU
    refine List.map_congr_left fun j _ => ?_
    rw [if_neg (by omega)]
    have h1 : (n : ℝ) - 1 ≠ 0 := by
      have : (2 : ℝ) ≤ n := by exact_mod_cast hn
      intro h; linarith
    have h2 : (n : ℝ) + 1 ≠ 0 := by positivity
    field_simp
    ring
  simp only [hlin, List.map_map]
  congr 1
  unfold npSort
  rw [List.mergeSort_of_pairwise]
  · rfl
  · rw [List.pairwise_map]
    refine List.pairwise_lt_range.imp fun {a b} hab => ?_
    simp only [Function.comp, decide_eq_true_eq, add_le_add_iff_left]
    refine Real.log_le_log ?_ ?_
    · have : (0 : ℝ) < ((a : ℝ) + 1) / (n + 1) := by positivity
      nlinarith
    · have : ((a : ℝ) + 1) / (n + 1) ≤ ((b : ℝ) + 1) / (n + 1) := by
        have : (a : ℝ) ≤ b := by exact_mod_cast hab.le
        gcongr
      nlinarith

theorem logxAt_py {xmax xmin : ℝ} (h : xmin < xmax) {n j : ℕ} (hn : 2 ≤ n) (hj : j < n) :
    logxAt xmax xmin n j = some ((pyLogx xmax xmin n).getD j 0) := by
  obtain ⟨hu0, hu1⟩ := exp_umin h
  rw [pyLogx_eq h hn]
  have hn' : (2 : ℝ) ≤ n := by exact_mod_cast hn
  have h1 : (n : ℝ) - 1 ≠ 0 := by intro h; linarith
  have h2 : (n : ℝ) + 1 ≠ 0 := by positivity
  have h3 : (1 : ℝ) + n ≠ 0 := by positivity
  have hg : (((List.range n).map fun (j : ℕ) => xmax + Real.log (Real.exp (xmin - xmax) +
      (1 - Real.exp (xmin - xmax)) * (((j : ℝ) + 1) / (n + 1)))).reverse).getD j 0 =
      xmax + Real.log (Real.exp (xmin - xmax) + (1 - Real.exp (xmin - xmax)) * (((n : ℝ) - j) / (n + 1))) := by
    rw [List.getD_eq_getElem?_getD, List.getElem?_eq_getElem (by simpa using hj)]
    simp only [List.getElem_reverse, List.getElem_map, List.getElem_range, List.length_map, List.length_range, Option.getD_some]
    congr 4
    rw [Nat.sub_sub, Nat.cast_sub (by omega)]
    push_cast
    ring
  rw [hg]
  have hu : (1 : ℝ) / (1 + n) + (1 - 2 / (1 + (n : ℝ))) * (((n : ℝ) - 1 - j) / ((n : ℝ) - 1)) = ((n : ℝ) - j) / (n + 1) := by
    field_simp
    ring
  have hpos : 0 < Real.exp (xmin - xmax) + (1 - Real.exp (xmin - xmax)) * (((n : ℝ) - j) / (n + 1)) := by
    have hj' : (j : ℝ) < n := by exact_mod_cast hj
    have : 0 < ((n : ℝ) - j) / (n + 1) := div_pos (by linarith) (by positivity)
    nlinarith
  unfold logxAt uFrac
  rw [if_neg (by omega)]
  simp only [Option.bind_some]
  rw [hu]
  unfold clog
  rw [if_pos hpos]
  rfl

theorem logpAt_py {xmax xmin : ℝ} (h : xmin < xmax) {n j : ℕ} (hj : j < n) : logpAt xmax xmin n j = pyLogp xmax xmin n j := by
  have hl : leftAt xmax xmin n j = some (if j ≠ n - 1 then (pyLogx xmax xmin n).getD (j + 1) 0 else xmin) := by
    unfold leftAt
    by_cases hc : j ≠ n - 1
    · rw [if_pos hc, if_pos hc]
      exact logxAt_py h (by omega) (by omega)
    · rw [if_neg hc, if_neg hc]
  have hr : rightAt xmax xmin n j = some (if j ≠ 0 then (pyLogx xmax xmin n).getD (j - 1) 0 else xmax) := by
    unfold rightAt
    by_cases hc : j ≠ 0
    · rw [if_pos hc, if_pos hc]
      exact logxAt_py h (by omega) (by omega)
    · rw [if_neg hc, if_neg hc]
  unfold logpAt pyLogp
  rw [hl, hr]
  rfl

/-! ### Arrays -/

theorem pyLevelWrites_eq {levels : List PyLevel} (hg : GoodLevels (levels.map Prod.fst)) (info : List PInfo) (sw : List ℕ)
    {i : ℕ} {l : PyLevel} (hl : levels[i]? = some l) :
    pyLevelWrites levels info sw i l =
      (levelWrites (levels.map Prod.fst) info sw i l.1).map fun w => (w.1, w.2.2) := by
  unfold pyLevelWrites levelWrites
  rw [msortC_eq_pySorted, List.map_map]
  refine List.map_congr_left fun e he => ?_
  have hx := lowerX_lt hg (i := i) (l := l.1) (by simp [hl])
  have hk := (List.getElem?_eq_some_iff.1 (List.mem_zipIdx_iff_getElem?.1 he)).1
  simp only [Function.comp, Prod.mk.injEq, true_and]
  exact (logpAt_py hx hk).symm

theorem pyCell_eq {levels : List PyLevel} (hg : GoodLevels (levels.map Prod.fst)) {info : List PInfo}
    (hsw : info.map (pySandwich levels) = info.map (sandwich (levels.map Prod.fst))) {j : ℕ} {c : Option ℝ × Option ℝ}
    (h : cellAfter (allWrites (levels.map Prod.fst) info (info.map (sandwich (levels.map Prod.fst)))) j = .ok c) :
    pyCell levels info j = c.2 := by
  have hw : (levels.zipIdx.flatMap fun e => pyLevelWrites levels info (info.map (pySandwich levels)) e.2 e.1) =
      (allWrites (levels.map Prod.fst) info (info.map (sandwich (levels.map Prod.fst)))).map fun w => (w.1, w.2.2) := by
    unfold allWrites
    rw [List.map_flatMap, List.zipIdx_map, List.flatMap_map, hsw]
    refine List.flatMap_congr fun e he => ?_
    have := pyLevelWrites_eq hg info (info.map (sandwich (levels.map Prod.fst))) (List.mem_zipIdx_iff_getElem?.1 he)
    simpa using this
  unfold pyCell
  rw [hw, List.filter_map, List.getLast?_map]
  unfold cellAfter at h
  simp only [Function.comp_def]
  cases hf : (List.filter (fun w => decide (w.1 = j))
      (allWrites (levels.map Prod.fst) info (info.map (sandwich (levels.map Prod.fst))))).getLast? with
  | none => rw [hf] at h; cases h
  | some w =>
    rw [hf] at h
    simp only [Res.ok.injEq] at h
    subst h
    rfl

theorem mapM_some {α β : Type} {f : α → Option β} {l : List α} {bs : List β} (h : List.Forall₂ (fun a b => f a = some b) l bs) :
    l.mapM f = some bs := by
  induction h with
  | nil => rfl
  | cons h _ ih => simp [h, ih]

theorem pyCells_eq {levels : List PyLevel} (hg : GoodLevels (levels.map Prod.fst)) {info : List PInfo}
    (hsw : info.map (pySandwich levels) = info.map (sandwich (levels.map Prod.fst))) {logp : List ℝ} {logx : List (Option ℝ)}
    (h : massArrays (levels.map Prod.fst) info = .ok (logp, logx)) :
    ((List.range info.length).mapM fun (j : ℕ) => pyCell levels info j) = some logp := by
  unfold massArrays at h
  obtain ⟨cells, hc, h⟩ := Res.bind_eq_ok.1 h
  obtain ⟨lp, hlp, h⟩ := Res.bind_eq_ok.1 h
  cases h
  have h1 := mapRes_eq_ok hc
  have h2 := mapRes_eq_ok hlp
  refine mapM_some ?_
  rw [List.forall₂_iff_get] at h1 h2 ⊢
  refine ⟨h1.1.trans h2.1, fun i hi hi' => ?_⟩
  have ha := h1.2 i hi (by have := h1.1; omega)
  have hb := h2.2 i (by have := h1.1; omega) hi'
  simp only [List.get_eq_getElem] at ha hb ⊢
  rw [pyCell_eq hg hsw ha]
  unfold finiteOr at hb
  split at hb
  · rename_i heq; rw [heq]; simpa using hb
  · cases hb

/-! ### Evidence -/

theorem sum_exp_shift (m : ℝ) (x : List ℝ) : (x.map fun y => Real.exp (y - m)).sum = (x.map Real.exp).sum * Real.exp (-m) := by
  induction x with
  | nil => simp
  | cons a x ih => rw [List.map_cons, List.sum_cons, ih, List.map_cons, List.sum_cons, sub_eq_add_neg, Real.exp_add]; ring

theorem npLogsumexp_eq {x : List ℝ} (h : x ≠ []) : npLogsumexp x = Real.log (x.map Real.exp).sum := by
  unfold npLogsumexp
  rw [sum_exp_shift, Real.log_mul (sum_exp_pos h).ne' (Real.exp_pos _).ne', Real.log_exp]
  ring

/-- The small number that Python adds under the logarithm. -/
theorem ess_close (lP : List ℝ) {ε : ℝ} (hε : 0 < ε) :
    Real.exp (lP.map (fun x => -x * Real.exp x)).sum * Real.exp (-(lP.length * ε)) ≤
      Real.exp (-((lP.map Real.exp).map fun w => w * Real.log (w + ε)).sum) ∧
    Real.exp (-((lP.map Real.exp).map fun w => w * Real.log (w + ε)).sum) ≤ Real.exp (lP.map (fun x => -x * Real.exp x)).sum := by
  rw [← Real.exp_add, Real.exp_le_exp, Real.exp_le_exp]
  induction lP with
  | nil => simp
  | cons x l ih =>
    simp only [List.map_cons, List.sum_cons, List.length_cons]
    push_cast
    have hp := Real.exp_pos x
    have h1 : x ≤ Real.log (Real.exp x + ε) := by
      rw [Real.le_log_iff_exp_le (by linarith)]; linarith
    have h2 : Real.exp x * Real.log (Real.exp x + ε) ≤ Real.exp x * x + ε := by
      have h3 : Real.exp x + ε = Real.exp x * (1 + ε / Real.exp x) := by field_simp
      have h4 : Real.log (1 + ε / Real.exp x) ≤ ε / Real.exp x := by
        have := Real.log_le_sub_one_of_pos (show 0 < 1 + ε / Real.exp x by positivity)
        linarith
      rw [h3, Real.log_mul hp.ne' (by positivity), Real.log_exp]
      have := mul_le_mul_of_nonneg_left h4 hp.le
      rw [mul_div_cancel₀ _ hp.ne'] at this
      linarith
    have h5 := mul_le_mul_of_nonneg_left h1 hp.le
    constructor
    · linarith [ih.1]
    · linarith [ih.2]

end Mica
