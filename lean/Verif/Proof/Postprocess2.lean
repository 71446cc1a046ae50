import Verif.Proof.Postprocess

/-! Helper lemmas about resampling and about shifts of the likelihood. -/

namespace Mica

/-! ## Resampling -/

theorem pickOne_ok {logP : List ℝ} {ds : List (ℕ × ℝ)} {r : ℕ × List (ℕ × ℝ)}
    (h : pickOne logP ds = .ok r) :
    ∃ x u, logP[r.1]? = some x ∧ (r.1, u) ∈ ds ∧ acceptPost u x = true ∧ r.2 ⊆ ds := by
  induction ds with
  | nil => simp [pickOne] at h
  | cons d ds ih =>
    obtain ⟨w, u⟩ := d
    simp only [pickOne] at h
    split at h
    · cases h
    · rename_i x hx
      split at h
      · rename_i ha
        cases h
        exact ⟨x, u, hx, by simp, ha, by simp⟩
      · obtain ⟨x', u', h1, h2, h3, h4⟩ := ih h
        exact ⟨x', u', h1, List.mem_cons_of_mem _ h2, h3, fun a ha => List.mem_cons_of_mem _ (h4 ha)⟩

theorem pickMany_ok {logP : List ℝ} {n : ℕ} {ds : List (ℕ × ℝ)} {is : List ℕ}
    (h : pickMany logP n ds = .ok is) :
    is.length = n ∧ ∀ w ∈ is, ∃ x u, logP[w]? = some x ∧ (w, u) ∈ ds ∧ acceptPost u x = true := by
  induction n generalizing ds is with
  | zero => simp only [pickMany, Res.ok.injEq] at h; subst h; simp
  | succ n ih =>
    simp only [pickMany] at h
    obtain ⟨r, hr, h⟩ := Res.bind_eq_ok.1 h
    obtain ⟨js, hjs, h⟩ := Res.bind_eq_ok.1 h
    cases h
    obtain ⟨x, u, h1, h2, h3, h4⟩ := pickOne_ok hr
    obtain ⟨h5, h6⟩ := ih hjs
    refine ⟨by simp [h5], ?_⟩
    intro w hw
    rcases List.mem_cons.1 hw with rfl | hw
    · exact ⟨x, u, h1, h2, h3⟩
    · obtain ⟨x', u', a, b, c⟩ := h6 w hw
      exact ⟨x', u', a, h4 b, c⟩

theorem pickOne_progress {logP : List ℝ} {ds : List (ℕ × ℝ)} (hr : ∀ d ∈ ds, d.1 < logP.length)
    (good : ℕ × ℝ → Bool) (hg : ∀ d ∈ ds, good d = true → ∃ x, logP[d.1]? = some x ∧ acceptPost d.2 x = true)
    {n : ℕ} (hn : n + 1 ≤ ds.countP good) :
    ∃ r, pickOne logP ds = .ok r ∧ n ≤ r.2.countP good ∧ r.2 ⊆ ds := by
  induction ds with
  | nil => simp at hn
  | cons d ds ih =>
    obtain ⟨w, u⟩ := d
    have hw : w < logP.length := hr (w, u) (by simp)
    simp only [pickOne, List.getElem?_eq_getElem hw]
    by_cases ha : acceptPost u logP[w] = true
    · rw [if_pos ha]
      refine ⟨_, rfl, ?_, by simp⟩
      rw [List.countP_cons] at hn
      dsimp only
      split at hn <;> omega
    · rw [if_neg ha]
      have : good (w, u) = false := by
        by_contra hgo
        obtain ⟨x, hx, hax⟩ := hg (w, u) (by simp) (by simpa using hgo)
        rw [List.getElem?_eq_getElem hw] at hx
        cases hx
        exact ha hax
      rw [List.countP_cons_of_neg (by simp [this])] at hn
      obtain ⟨r, h1, h2, h3⟩ := ih (fun d hd => hr d (List.mem_cons_of_mem _ hd))
        (fun d hd => hg d (List.mem_cons_of_mem _ hd)) hn
      exact ⟨r, h1, h2, fun a ha => List.mem_cons_of_mem _ (h3 ha)⟩

theorem pickMany_progress {logP : List ℝ} {n : ℕ} {ds : List (ℕ × ℝ)} (hr : ∀ d ∈ ds, d.1 < logP.length)
    (good : ℕ × ℝ → Bool) (hg : ∀ d ∈ ds, good d = true → ∃ x, logP[d.1]? = some x ∧ acceptPost d.2 x = true)
    (hn : n ≤ ds.countP good) : ∃ is, pickMany logP n ds = .ok is := by
  induction n generalizing ds with
  | zero => exact ⟨[], rfl⟩
  | succ n ih =>
    obtain ⟨r, h1, h2, h3⟩ := pickOne_progress hr good hg hn
    obtain ⟨is, his⟩ := ih (fun d hd => hr d (h3 hd)) (fun d hd => hg d (h3 hd)) h2
    exact ⟨r.1 :: is, by simp [pickMany, h1, his]⟩

/-- Never undefined as long as the random indices are in range. -/
theorem pickMany_ne_ub {logP : List ℝ} {n : ℕ} {ds : List (ℕ × ℝ)} (hr : ∀ d ∈ ds, d.1 < logP.length) :
    (∃ is, pickMany logP n ds = .ok is) ∨ pickMany logP n ds = .hang := by
  have hone : ∀ ds : List (ℕ × ℝ), (∀ d ∈ ds, d.1 < logP.length) →
      (∃ r, pickOne logP ds = .ok r) ∨ pickOne logP ds = .hang := by
    intro ds hr
    induction ds with
    | nil => exact Or.inr rfl
    | cons d ds ih =>
      obtain ⟨w, u⟩ := d
      have hw : w < logP.length := hr (w, u) (by simp)
      simp only [pickOne, List.getElem?_eq_getElem hw]
      split
      · exact Or.inl ⟨_, rfl⟩
      · exact ih (fun d hd => hr d (List.mem_cons_of_mem _ hd))
  induction n generalizing ds with
  | zero => exact Or.inl ⟨[], rfl⟩
  | succ n ih =>
    rcases hone ds hr with ⟨r, h⟩ | h
    · obtain ⟨_, _, _, _, _, hsub⟩ := pickOne_ok h
      rcases ih (ds := r.2) (fun d hd => hr d (hsub hd)) with ⟨is, his⟩ | his
      · exact Or.inl ⟨r.1 :: is, by simp [pickMany, h, his]⟩
      · exact Or.inr (by simp [pickMany, h, his])
    · exact Or.inr (by simp [pickMany, h])

theorem copyAll_go {α : Type} (idx : List ℕ) (samples : List α) (n : ℕ) (g : ℕ → Option α) :
    (samples.zipIdx n).foldl (fun post e => copyOne idx post e.2 e.1) (idx.map g) =
      idx.map (fun k => if n ≤ k ∧ k < n + samples.length then samples[k - n]? else g k) := by
  induction samples generalizing n g with
  | nil =>
    simp only [List.zipIdx_nil, List.foldl_nil, List.length_nil, Nat.add_zero]
    apply List.map_congr_left
    intro k _
    rw [if_neg (by omega)]
  | cons x xs ih =>
    simp only [List.zipIdx_cons, List.foldl_cons]
    have : copyOne idx (idx.map g) n x = idx.map (fun k => if k = n then some x else g k) := by
      unfold copyOne
      rw [List.zipWith_map_right]
      exact List.zipWith_self ..
    rw [this, ih]
    apply List.map_congr_left
    intro k _
    by_cases h1 : k = n
    · subst h1
      simp
    · by_cases h2 : n + 1 ≤ k ∧ k < n + 1 + xs.length
      · rw [if_pos h2, if_pos (by simp; omega)]
        obtain ⟨d, rfl⟩ : ∃ d, k = n + 1 + d := ⟨k - (n + 1), by omega⟩
        rw [show n + 1 + d - (n + 1) = d by omega, show n + 1 + d - n = d + 1 by omega]
        simp
      · rw [if_neg h2, if_neg h1, if_neg (by simp; omega)]

/-- The copy loops give every posterior sample the sample it refers to. -/
theorem copyAll_eq {α : Type} (idx : List ℕ) (samples : List α) :
    copyAll idx samples = idx.map (fun k => samples[k]?) := by
  unfold copyAll
  rw [copyAll_go]
  apply List.map_congr_left
  intro k _
  by_cases h : k < samples.length
  · rw [if_pos (by omega)]; rfl
  · rw [if_neg (by omega), List.getElem?_eq_none (by omega)]

/-! ## Shifts -/

theorem mergeC_map {α β : Type} (f : α → β) (cmp : β → β → Int) (cmp' : α → α → Int)
    (h : ∀ a b, cmp (f a) (f b) = cmp' a b) (l r : List α) :
    mergeC cmp (l.map f) (r.map f) = (mergeC cmp' l r).map f := by
  fun_induction mergeC cmp' l r with
  | case1 r => simp [mergeC]
  | case2 l hl => cases l <;> simp [mergeC]
  | case3 a l b r hc ih =>
    simp only [List.map_cons] at *
    rw [mergeC, if_pos (by rw [h]; exact hc), ih]
  | case4 a l b r hc ih =>
    simp only [List.map_cons] at *
    rw [mergeC, if_neg (by rw [h]; exact hc), ih]

theorem msortC_map {α β : Type} (f : α → β) (cmp : β → β → Int) (cmp' : α → α → Int)
    (h : ∀ a b, cmp (f a) (f b) = cmp' a b) (l : List α) :
    msortC cmp (l.map f) = (msortC cmp' l).map f := by
  induction hn : l.length using Nat.strong_induction_on generalizing l with
  | _ n ih =>
    conv_lhs => rw [msortC]
    conv_rhs => rw [msortC]
    simp only [List.length_map]
    by_cases h1 : l.length ≤ 1
    · simp [h1]
    · simp only [h1, dite_false]
      rw [← List.map_take, ← List.map_drop,
        ih _ (by rw [← hn]; simp only [List.length_take]; omega) (l.take (l.length / 2)) rfl,
        ih _ (by rw [← hn]; simp only [List.length_drop]; omega) (l.drop (l.length / 2)) rfl,
        mergeC_map f cmp cmp' h]

/-- Shift the thresholds. -/
def PLevel.shift (c : ℝ) (l : PLevel) : PLevel := { l with logl := l.logl + c }
/-- Shift the likelihood of a sample. -/
def PInfo.shift (c : ℝ) (p : PInfo) : PInfo := { p with logl := p.logl + c }

theorem sandwichGo_shift (c logl : ℝ) (ls : List PLevel) (j acc : ℕ) :
    sandwichGo (logl + c) j acc (ls.map (PLevel.shift c)) = sandwichGo logl j acc ls := by
  induction ls generalizing j acc with
  | nil => rfl
  | cons l ls ih =>
    simp only [List.map_cons, sandwichGo, PLevel.shift, gt_iff_lt, add_lt_add_iff_right]
    exact ih _ _

theorem sandwich_shift (c : ℝ) (levels : List PLevel) (p : PInfo) :
    sandwich (levels.map (PLevel.shift c)) (p.shift c) = sandwich levels p := by
  unfold sandwich
  rw [← List.map_drop]
  exact sandwichGo_shift c p.logl _ _ _

theorem membersOf_shift (c : ℝ) (info : List PInfo) (sw : List ℕ) (i : ℕ) :
    membersOf (info.map (PInfo.shift c)) sw i =
      (membersOf info sw i).map (fun m => { m with logl := m.logl + c }) := by
  unfold membersOf
  rw [List.zip_map_left, List.zipIdx_map, List.filter_map, List.map_map, List.map_map]
  rfl

theorem lowerX_shift (c : ℝ) (levels : List PLevel) (i : ℕ) :
    lowerX (levels.map (PLevel.shift c)) i = lowerX levels i := by
  unfold lowerX
  simp only [List.length_map, List.getElem?_map]
  split
  · rfl
  · cases levels[i + 1]? <;> rfl

theorem levelWrites_shift (c : ℝ) (levels : List PLevel) (info : List PInfo) (sw : List ℕ) (i : ℕ)
    (l : PLevel) :
    levelWrites (levels.map (PLevel.shift c)) (info.map (PInfo.shift c)) sw i (l.shift c) =
      levelWrites levels info sw i l := by
  unfold levelWrites
  simp only [membersOf_shift, lowerX_shift]
  rw [msortC_map _ cmpSample cmpSample (by
    intro a b
    simp only [cmpSample, gt_iff_lt, add_lt_add_iff_right, add_left_inj])]
  rw [List.zipIdx_map, List.map_map]
  simp only [List.length_map]
  rfl

theorem massArrays_shift (c : ℝ) (levels : List PLevel) (info : List PInfo) :
    massArrays (levels.map (PLevel.shift c)) (info.map (PInfo.shift c)) = massArrays levels info := by
  have hsw : (info.map (PInfo.shift c)).map (sandwich (levels.map (PLevel.shift c)))
      = info.map (sandwich levels) := by
    rw [List.map_map]
    apply List.map_congr_left
    intro p _
    exact sandwich_shift c levels p
  have hws : allWrites (levels.map (PLevel.shift c)) (info.map (PInfo.shift c))
      (info.map (sandwich levels)) = allWrites levels info (info.map (sandwich levels)) := by
    unfold allWrites
    rw [List.zipIdx_map, List.flatMap_map]
    congr 1
    funext e
    exact levelWrites_shift c levels info _ e.2 e.1
  unfold massArrays
  simp only [hsw, hws, List.length_map]

theorem zipWith_add_shift (l m : List ℝ) (c : ℝ) :
    List.zipWith (· + ·) l (m.map (· + c)) = (List.zipWith (· + ·) l m).map (· + c) := by
  induction l generalizing m with
  | nil => simp
  | cons a l ih =>
    cases m with
    | nil => simp
    | cons b m => simp [ih, add_assoc]

theorem sum_map_exp_add (l : List ℝ) (c : ℝ) :
    ((l.map (· + c)).map Real.exp).sum = (l.map Real.exp).sum * Real.exp c := by
  induction l with
  | nil => simp
  | cons a l ih => simp only [List.map_cons, List.sum_cons, ih, add_mul, ← Real.exp_add]

theorem evidence_shift {logp logl : List ℝ} (h0 : logp ≠ []) (hlen : logp.length = logl.length) (c : ℝ)
    {z h e : ℝ} {lP : List ℝ} (hev : evidence logp logl = .ok (z, h, e, lP)) :
    evidence logp (logl.map (· + c)) = .ok (z + c, h, e, lP) := by
  obtain ⟨z', h', e', lP', heq, hl, hs, hlP, hz, hh, he⟩ := evidence_ok h0 hlen
  rw [hev] at heq; cases heq
  obtain ⟨z2, h2, e2, lP2, heq2, hl2, hs2, hlP2, hz2, hh2, he2⟩ :=
    evidence_ok (logl := logl.map (· + c)) h0 (by simpa using hlen)
  set lp := logp.map (· - Real.log (logp.map Real.exp).sum) with hlp
  have hne : List.zipWith (· + ·) lp logl ≠ [] := by
    intro h
    have := congrArg List.length h
    simp only [List.length_zipWith, hlp, List.length_map, List.length_nil] at this
    have := List.length_pos_iff.2 h0
    omega
  have hzz : z2 = z + c := by
    rw [hz2, hz, zipWith_add_shift, sum_map_exp_add,
      Real.log_mul (sum_exp_pos hne).ne' (Real.exp_pos _).ne', Real.log_exp]
  have hPP : lP2 = lP := by
    rw [hlP2, hlP, zipWith_add_shift, List.map_map, hzz]
    apply List.map_congr_left
    intro x _
    simp
  have hhh : h2 = h := by
    rw [hh2, hh, hPP, hzz]
    have : ∀ (a b : List ℝ), a.length = b.length →
        ((a.zip (b.map (· + c))).map (fun e => Real.exp e.1 * e.2)).sum
        = ((a.zip b).map (fun e => Real.exp e.1 * e.2)).sum + c * (a.map Real.exp).sum := by
      intro a
      induction a with
      | nil => intro b _; simp
      | cons x a ih =>
        intro b hb
        cases b with
        | nil => simp at hb
        | cons y b =>
          simp only [List.map_cons, List.zip_cons_cons, List.sum_cons]
          rw [ih b (by simpa using hb)]
          ring
    rw [this lP logl (by omega), hs]
    ring
  rw [heq2, hzz, hhh, hPP, he2, he, hPP]

end Mica
