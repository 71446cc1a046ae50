import Verif.Model.Stages
import Verif.Props.Misc
import Verif.Props.LineParams

/-! # C141: the line stage keeps what the continuum stage found -/

namespace Mica

/-- At most `(n-1)/25` of the values are further than five standard deviations from the mean. -/
theorem outside_five (xs : List ℝ) (m σ S : ℝ) (hσ : 0 ≤ σ) (hS : S ≤ σ ^ 2 * (xs.length - 1))
    (hd : S = (xs.map fun x => (x - m) ^ 2).sum) (hl : 1 ≤ xs.length) :
    25 * (xs.filter fun x => decide (5 * σ < |x - m|)).length ≤ xs.length - 1 := by
  rcases hσ.eq_or_lt with h0 | hpos
  · have hz : S ≤ 0 := by rw [← h0] at hS; simpa using hS
    have hall : ∀ x ∈ xs, x = m := by
      intro x hx
      have h1 : (x - m) ^ 2 ≤ S := by
        rw [hd]
        exact List.single_le_sum (fun y hy => by
          obtain ⟨z, -, rfl⟩ := List.mem_map.1 hy; positivity) _ (List.mem_map.2 ⟨x, hx, rfl⟩)
      have h2 : (x - m) ^ 2 = 0 := le_antisymm (h1.trans hz) (sq_nonneg _)
      have := pow_eq_zero_iff (two_ne_zero) |>.1 h2
      linarith
    have : (xs.filter fun x => decide (5 * σ < |x - m|)) = [] := by
      rw [List.filter_eq_nil_iff]
      intro x hx
      rw [hall x hx, ← h0]
      simp
    rw [this]
    simp
  · have key : ∀ l : List ℝ, 25 * σ ^ 2 * ((l.filter fun x => decide (5 * σ < |x - m|)).length : ℝ) ≤
        (l.map fun x => (x - m) ^ 2).sum := by
      intro l
      induction l with
      | nil => simp
      | cons a l ih =>
        rw [List.filter_cons, List.map_cons, List.sum_cons]
        by_cases ha : 5 * σ < |a - m|
        · rw [if_pos (by simpa using ha), List.length_cons]
          have : (5 * σ) ^ 2 ≤ (a - m) ^ 2 := by
            rw [← sq_abs (a - m)]
            exact pow_le_pow_left₀ (by positivity) ha.le 2
          push_cast
          nlinarith
        · rw [if_neg (by simpa using ha)]
          nlinarith [sq_nonneg (a - m)]
    have h1 := key xs
    rw [← hd] at h1
    have h2 := h1.trans hS
    have h3 : (25 : ℝ) * ((xs.filter fun x => decide (5 * σ < |x - m|)).length : ℝ) ≤ xs.length - 1 := by
      have hs2 : 0 < σ ^ 2 := by positivity
      by_contra hc
      push Not at hc
      nlinarith
    have h4 : ((25 * (xs.filter fun x => decide (5 * σ < |x - m|)).length + 1 : ℕ) : ℝ) ≤ (xs.length : ℕ) := by
      push_cast; linarith
    have h5 := Nat.cast_le.1 h4
    omega

/-- No value is further than `(n-1)/sqrt n` standard deviations from the mean. -/
theorem farthest (xs : List ℝ) (m : ℝ) (hm : xs.length * m = xs.sum) (x : ℝ) (hx : x ∈ xs) :
    xs.length * (x - m) ^ 2 ≤ (xs.length - 1) * (xs.map fun y => (y - m) ^ 2).sum := by
  have hp := List.perm_cons_erase hx
  set l := xs.erase x with hl
  have hlen : xs.length = l.length + 1 := by rw [hp.length_eq, List.length_cons]
  have hsum : xs.sum = x + l.sum := by rw [hp.sum_eq, List.sum_cons]
  have hsq : (xs.map fun y => (y - m) ^ 2).sum = (x - m) ^ 2 + (l.map fun y => (y - m) ^ 2).sum := by
    rw [(hp.map _).sum_eq, List.map_cons, List.sum_cons]
  have hdev : (l.map fun y => y - m).sum = -(x - m) := by
    have : ∀ l : List ℝ, (l.map fun y => y - m).sum = l.sum - l.length * m := by
      intro l
      induction l with
      | nil => simp
      | cons a l ih => simp only [List.map_cons, List.sum_cons, ih, List.length_cons]; push_cast; ring
    rw [this]
    rw [hlen, hsum] at hm
    push_cast at hm
    linarith
  have hcs : ∀ l : List ℝ, (l.sum) ^ 2 ≤ l.length * (l.map fun y => y ^ 2).sum := by
    intro l
    have := sumSq_nonneg l (l.sum / l.length)
    rw [sumSq_dev] at this
    rcases Nat.eq_zero_or_pos l.length with h0 | h0
    · rw [List.length_eq_zero_iff.1 h0]; simp
    · have hr : (0 : ℝ) < l.length := by exact_mod_cast h0
      have e : (l.map fun x => x * x) = l.map fun y => y ^ 2 := List.map_congr_left fun y _ => by ring
      rw [e] at this
      have h2 : (l.map fun y => y ^ 2).sum - 2 * (l.sum / l.length) * l.sum + l.length * (l.sum / l.length) ^ 2 =
        (l.map fun y => y ^ 2).sum - l.sum ^ 2 / l.length := by field_simp; ring
      rw [h2, sub_nonneg, div_le_iff₀ hr] at this
      linarith
  have h1 := hcs (l.map fun y => y - m)
  rw [hdev, List.length_map, List.map_map] at h1
  have h2 : ((fun y : ℝ => y ^ 2) ∘ fun y => y - m) = fun y => (y - m) ^ 2 := rfl
  rw [h2] at h1
  rw [hsq, hlen]
  push_cast
  nlinarith

/-- C141: let `s` be the posterior sample of the continuum stage as read back (`rest`: whatever follows in the file), with
all values inside the prior of that stage.  The line stage can be set up from it, and the range it gives to each parameter
of the continuum lies inside the prior, contains the posterior mean and all but at most `(n-1)/25` of the `n` sample
values: more than 96%; for up to 26 values, all of them.  It is an interval unless all values are equal; then it is
that value. -/
theorem C141_range (c : LineCfg) (s : List (List ℝ)) (np : ℕ) (hs : ∀ x ∈ s, x.length = np) (hne : s ≠ [])
    (hnp : c.numVar ≤ np) (rest : List ℝ)
    (hin : ∀ x ∈ s, ∀ t q, q < 3 → 3 * t + q < c.numVar →
      (c.varRange q).1 ≤ x.getD (3 * t + q) 0 ∧ x.getD (3 * t + q) 0 ≤ (c.varRange q).2) :
    ∃ out, summary s.length np (s.flatten ++ rest) = .ok out ∧ ∀ t q, q < 3 → 3 * t + q < c.numVar →
      let r := (c.afterCon out).rng (3 * t + q)
      let col := s.map fun x => x.getD (3 * t + q) 0
      (c.varRange q).1 ≤ r.1 ∧ r.2 ≤ (c.varRange q).2 ∧
      r.1 ≤ col.sum / s.length ∧ col.sum / s.length ≤ r.2 ∧
      25 * (col.filter fun x => ¬(r.1 ≤ x ∧ x ≤ r.2)).length ≤ s.length - 1 ∧
      (s.length ≤ 26 → ∀ x ∈ col, r.1 ≤ x ∧ x ≤ r.2) ∧
      ((∃ x ∈ col, ∃ y ∈ col, x ≠ y) → r.1 < r.2) ∧
      ∀ v, (∀ x ∈ col, x = v) → r = (v, v) ∧ (c.afterCon out).varPar (3 * t + q) = v ∧
        (c.afterCon out).varStd (3 * t + q) = 0 := by
  obtain ⟨out, ho, hlen, hout⟩ := C50_summary s np hs hne rest
  refine ⟨out, ho, fun t q hq ht => ?_⟩
  obtain ⟨m, σ, hget, hm, hσ, hdev, hone⟩ := hout (3 * t + q) (by omega)
  intro r col
  have hcl : col.length = s.length := List.length_map ..
  have hn1 : 1 ≤ s.length := List.length_pos_iff.2 hne
  have hnr : (1 : ℝ) ≤ s.length := by exact_mod_cast hn1
  have hnp' : (0 : ℝ) < s.length := by linarith
  have hcm : col.length * m = col.sum := by rw [hcl]; exact hm
  have hmean : col.sum / s.length = m := by rw [← hcm, hcl]; field_simp
  have hrng : r = (max (m - 5 * σ) (c.varRange q).1, min (m + 5 * σ) (c.varRange q).2) := by
    have h1 : r = (c.afterCon out).varParRange (3 * t) q := (c.afterCon out).rng_var t q hq ht
    have h2 : (c.afterCon out).varRange q = c.varRange q := by
      rcases q with _ | _ | q <;> rfl
    rw [h1]
    unfold LineCfg.varParRange
    rw [h2]
    simp only [LineCfg.afterCon, List.getD_eq_getElem?_getD, hget, Option.getD_some]
  have hcol : ∀ x ∈ col, (c.varRange q).1 ≤ x ∧ x ≤ (c.varRange q).2 := by
    intro x hx
    obtain ⟨y, hy, rfl⟩ := List.mem_map.1 hx
    exact hin y hy t q hq ht
  have hsq : (s.length - 1) * σ ^ 2 = (col.map fun x => (x - m) ^ 2).sum := by
    rw [List.map_map]
    rcases hn1.eq_or_lt with h1 | h1
    · obtain ⟨x, rfl⟩ := List.length_eq_one_iff.1 h1.symm
      have : x.getD (3 * t + q) 0 = m := by simpa [col] using hcm.symm
      have h0 : ((fun x => (x - m) ^ 2) ∘ fun x : List ℝ => x.getD (3 * t + q) 0) x = 0 := by
        show (x.getD (3 * t + q) 0 - m) ^ 2 = 0
        rw [this]; ring
      rw [List.map_singleton, List.sum_singleton, h0]
      simp
    · exact hdev h1
  -- the mean lies strictly between two different values
  have hlow : ∀ a : ℝ, (∀ x ∈ col, a ≤ x) → a ≤ m := by
    intro a ha
    have := List.card_nsmul_le_sum col a ha
    rw [nsmul_eq_mul, ← hcm] at this
    rw [hcl] at this
    exact le_of_mul_le_mul_left this hnp'
  have hupp : ∀ a : ℝ, (∀ x ∈ col, x ≤ a) → m ≤ a := by
    intro a ha
    have := List.sum_le_card_nsmul col a ha
    rw [nsmul_eq_mul, ← hcm] at this
    rw [hcl] at this
    exact le_of_mul_le_mul_left this hnp'
  have h1 := hlow _ fun x hx => (hcol x hx).1
  have h2 := hupp _ fun x hx => (hcol x hx).2
  have hstrict : ∀ x ∈ col, x ≠ m → 0 < σ := by
    intro x hx hxm
    refine lt_of_le_of_ne hσ fun h0 => hxm ?_
    rw [← h0] at hsq
    have h3 : (x - m) ^ 2 ≤ 0 := by
      have : (x - m) ^ 2 ≤ (col.map fun x => (x - m) ^ 2).sum :=
        List.single_le_sum (fun y hy => by
          obtain ⟨z, -, rfl⟩ := List.mem_map.1 hy; positivity) _ (List.mem_map.2 ⟨x, hx, rfl⟩)
      rw [← hsq] at this
      simpa using this
    have := pow_eq_zero_iff two_ne_zero |>.1 (le_antisymm h3 (sq_nonneg _))
    linarith
  have hinside : ∀ x ∈ col, |x - m| ≤ 5 * σ → r.1 ≤ x ∧ x ≤ r.2 := by
    intro x hx h
    rw [abs_le] at h
    rw [hrng]
    exact ⟨max_le (by linarith) (hcol x hx).1, le_min (by linarith) (hcol x hx).2⟩
  refine ⟨?_, ?_, ?_, ?_, ?_, ?_, ?_, ?_⟩
  · rw [hrng]; exact le_max_right _ _
  · rw [hrng]; exact min_le_right _ _
  · rw [hrng, hmean]; exact max_le (by linarith) h1
  · rw [hrng, hmean]; exact le_min (by linarith) h2
  · have h3 := outside_five col m σ _ hσ (by rw [hcl, mul_comm]) hsq (by rw [hcl]; exact hn1)
    rw [hcl] at h3
    refine le_trans (Nat.mul_le_mul_left _ ?_) h3
    refine (List.Sublist.length_le ?_)
    have : (col.filter fun x => decide ¬(r.1 ≤ x ∧ x ≤ r.2)) =
        (col.filter fun x => decide (5 * σ < |x - m|)).filter fun x => decide ¬(r.1 ≤ x ∧ x ≤ r.2) := by
      rw [List.filter_filter]
      refine List.filter_congr fun x hx => ?_
      by_cases h : |x - m| ≤ 5 * σ
      · simp [hinside x hx h]
      · simp [not_le.1 h]
    rw [this]
    exact List.filter_sublist
  · intro h26 x hx
    refine hinside x hx ?_
    have h3 := farthest col m hcm x hx
    rw [← hsq, hcl] at h3
    refine abs_le_of_sq_le_sq ?_ (by positivity)
    have h26r : (s.length : ℝ) ≤ 26 := by exact_mod_cast h26
    have h4 : ((s.length : ℝ) - 1) * ((s.length : ℝ) - 1) ≤ 25 * s.length := by nlinarith
    have h5 : s.length * (x - m) ^ 2 ≤ s.length * (5 * σ) ^ 2 := by
      calc s.length * (x - m) ^ 2 ≤ (s.length - 1) * ((s.length - 1) * σ ^ 2) := h3
        _ = ((s.length - 1) * (s.length - 1)) * σ ^ 2 := by ring
        _ ≤ 25 * s.length * σ ^ 2 := mul_le_mul_of_nonneg_right h4 (sq_nonneg _)
        _ = s.length * (5 * σ) ^ 2 := by ring
    exact le_of_mul_le_mul_left h5 hnp'
  · rintro ⟨x, hx, y, hy, hxy⟩
    have hpos : 0 < σ := by
      by_cases h : x = m
      · exact hstrict y hy fun h' => hxy (h.trans h'.symm)
      · exact hstrict x hx h
    have hne1 : (c.varRange q).1 < m := by
      refine lt_of_le_of_ne h1 fun he => ?_
      have hsum : (col.map fun x => x - m).sum = 0 := by
        have : ∀ l : List ℝ, (l.map fun y => y - m).sum = l.sum - l.length * m := by
          intro l
          induction l with
          | nil => simp
          | cons a l ih => simp only [List.map_cons, List.sum_cons, ih, List.length_cons]; push_cast; ring
        rw [this, hcm, sub_self]
      have hz : ∀ z ∈ col, z - m = 0 := fun z hz => by
        have hnn : ∀ w ∈ col.map fun x => x - m, 0 ≤ w := by
          intro w hw
          obtain ⟨u, hu, rfl⟩ := List.mem_map.1 hw
          have := (hcol u hu).1
          linarith
        have := List.single_le_sum hnn _ (List.mem_map.2 ⟨z, hz, rfl⟩)
        have := hnn _ (List.mem_map.2 ⟨z, hz, rfl⟩)
        linarith
      exact hxy (by linarith [hz x hx, hz y hy])
    have hne2 : m < (c.varRange q).2 := by
      refine lt_of_le_of_ne h2 fun he => ?_
      have hsum : (col.map fun x => m - x).sum = 0 := by
        have : ∀ l : List ℝ, (l.map fun y => m - y).sum = l.length * m - l.sum := by
          intro l
          induction l with
          | nil => simp
          | cons a l ih => simp only [List.map_cons, List.sum_cons, ih, List.length_cons]; push_cast; ring
        rw [this, hcm, sub_self]
      have hz : ∀ z ∈ col, m - z = 0 := fun z hz => by
        have hnn : ∀ w ∈ col.map fun x => m - x, 0 ≤ w := by
          intro w hw
          obtain ⟨u, hu, rfl⟩ := List.mem_map.1 hw
          have := (hcol u hu).2
          linarith
        have := List.single_le_sum hnn _ (List.mem_map.2 ⟨z, hz, rfl⟩)
        have := hnn _ (List.mem_map.2 ⟨z, hz, rfl⟩)
        linarith
      exact hxy (by linarith [hz x hx, hz y hy])
    rw [hrng]
    exact max_lt (lt_min (by linarith) (by linarith)) (lt_min (by linarith) (hne1.trans hne2))
  · intro v hv
    have hmv : m = v := le_antisymm (hupp v fun x hx => (hv x hx).le) (hlow v fun x hx => (hv x hx).ge)
    have hσ0 : σ = 0 := by
      rcases hn1.eq_or_lt with h3 | h3
      · exact hone h3.symm
      · have : (col.map fun x => (x - m) ^ 2).sum = 0 := by
          refine List.sum_eq_zero fun y hy => ?_
          obtain ⟨z, hz, rfl⟩ := List.mem_map.1 hy
          rw [hv z hz, hmv, sub_self]; norm_num
        rw [this] at hsq
        have h3r : (1 : ℝ) < s.length := by exact_mod_cast h3
        rcases mul_eq_zero.1 hsq with h4 | h4
        · linarith
        · exact pow_eq_zero_iff two_ne_zero |>.1 h4
    refine ⟨?_, ?_, ?_⟩
    · rw [hrng, hσ0, hmv, mul_zero, sub_zero, add_zero]
      rw [hmv] at h1 h2
      rw [max_eq_left h1, min_eq_left h2]
    · simp only [LineCfg.afterCon, List.getD_eq_getElem?_getD, hget, Option.getD_some, hmv]
    · simp only [LineCfg.afterCon, List.getD_eq_getElem?_getD, hget, Option.getD_some, hσ0]

/-- C141, all values equal (a sample of one point, for example): the parameter is held at that value in the line stage.
Folding puts every proposal back to it, and the move is rejected: what the proposal returns is not a number. -/
theorem C141_held (c : LineCfg) (which : ℕ) (v : ℝ) (hpar : c.varPar which = v) (hstd : c.varStd which = 0)
    (hr : c.rng which = (v, v)) (pm : ℕ → ℝ) (hpm : pm which = v) :
    (∀ x, dnestWrap x (c.rng which).1 (c.rng which).2 = .ok v) ∧
    ∀ u level value, acceptFl (c.varLogHFl pm (Function.update pm which v) which) u level value = false := by
  refine ⟨fun x => ?_, fun u level value => ?_⟩
  · rw [hr]
    unfold dnestWrap cmod
    simp only [sub_self, lt_irrefl, if_false, if_true, Res.ok_bind]
    exact congrArg Res.ok (zero_add v)
  · have h : c.varLogHFl pm (Function.update pm which v) which = .nan := by
      unfold LineCfg.varLogHFl LineCfg.vVarTerm
      simp [hpar, hstd, hpm, Fl.div, Fl.sq, Fl.mulNegHalf, Fl.neg, Fl.sub, Fl.add]
    rw [h]
    simp [acceptFl, Fl.lt, Fl.le, Fl.exp]

/-- C141, standard deviation not zero: a move of a parameter of the continuum from `pm` to `q` is accepted with the Metropolis
probability for a normal prior with the mean and the standard deviation found in the continuum stage, if the likelihood is above the level. -/
theorem C141_ratio (c : LineCfg) (which : ℕ) (hstd : c.varStd which ≠ 0) (pm q : ℕ → ℝ) (u level value : ℝ) :
    acceptFl (c.varLogHFl pm q which) u (.fin level) (.fin value) = true ↔ level < value ∧
      u ≤ min 1 (Real.exp (-(q which - c.varPar which) ^ 2 / (2 * c.varStd which ^ 2)) /
        Real.exp (-(pm which - c.varPar which) ^ 2 / (2 * c.varStd which ^ 2))) := by
  have h : c.varLogHFl pm q which = .fin (-(q which - c.varPar which) ^ 2 / (2 * c.varStd which ^ 2) -
      -(pm which - c.varPar which) ^ 2 / (2 * c.varStd which ^ 2)) := by
    unfold LineCfg.varLogHFl LineCfg.vVarTerm
    simp only [Fl.div, if_neg hstd, Fl.sq, Fl.mulNegHalf, Fl.neg, Fl.sub, Fl.add, Fl.fin.injEq]
    field_simp
    ring
  rw [h, ← Real.exp_sub]
  generalize -(q which - c.varPar which) ^ 2 / (2 * c.varStd which ^ 2) - -(pm which - c.varPar which) ^ 2 / (2 * c.varStd which ^ 2) = d
  unfold acceptFl
  by_cases hd : 0 < d
  · have : 1 ≤ Real.exp d := Real.one_le_exp hd.le
    simp [Fl.lt, Fl.le, Fl.exp, hd, this, and_comm]
  · have : Real.exp d ≤ 1 := Real.exp_le_one_iff.2 (not_lt.1 hd)
    simp only [Fl.lt, hd, if_false, Fl.le, Fl.exp, min_eq_right this, decide_eq_true_eq]
    exact and_comm

example (pm : ℕ → ℝ) (u : ℝ) (hu : u ≤ 0) :
    acceptFl (((lineCfgEx 1 0 [1] true).afterCon [(1, 2)]).varLogHFl pm pm 0) u (.fin 0) (.fin 1) = true :=
  (C141_ratio _ 0 (by norm_num [LineCfg.afterCon]) pm pm u 0 1).2 ⟨one_pos, hu.trans (le_min zero_le_one (by positivity))⟩

/-- The two together: after a continuum stage that left a single point `x`, every parameter of the continuum is held. -/
theorem C141_single (c : LineCfg) (x : List ℝ) (hnp : c.numVar ≤ x.length)
    (hin : ∀ t q, q < 3 → 3 * t + q < c.numVar →
      (c.varRange q).1 ≤ x.getD (3 * t + q) 0 ∧ x.getD (3 * t + q) 0 ≤ (c.varRange q).2) :
    ∃ out, summary 1 x.length x = .ok out ∧ ∀ which < c.numVar, ∀ pm : ℕ → ℝ, pm which = x.getD which 0 →
      (∀ y, dnestWrap y ((c.afterCon out).rng which).1 ((c.afterCon out).rng which).2 = .ok (x.getD which 0)) ∧
      ∀ u level value, acceptFl ((c.afterCon out).varLogHFl pm (Function.update pm which (x.getD which 0)) which)
        u level value = false := by
  obtain ⟨out, ho, h⟩ := C141_range c [x] x.length (by simp) (by simp) hnp []
    (by intro y hy t q hq ht; rw [List.mem_singleton.1 hy]; exact hin t q hq ht)
  refine ⟨out, by simpa using ho, fun which hw pm hpm => ?_⟩
  have e : 3 * (which / 3) + which % 3 = which := Nat.div_add_mod which 3
  obtain ⟨-, -, -, -, -, -, -, hv⟩ := h (which / 3) (which % 3) (Nat.mod_lt _ (by norm_num)) (by rw [e]; exact hw)
  obtain ⟨h1, h2, h3⟩ := hv (x.getD which 0) (by intro y hy; rw [e] at hy; simpa using hy)
  rw [e] at h1 h2 h3
  exact C141_held _ which _ h2 h3 h1 pm hpm

theorem log_tspan_big : 2 ≤ Real.log ((300 : ℝ) * 2 * Real.pi) := by
  rw [Real.le_log_iff_exp_le (by positivity)]
  have h1 : Real.exp 2 ≤ 9 := by
    have h := Real.exp_one_lt_d9
    have : Real.exp 2 = Real.exp 1 ^ 2 := by rw [← Real.exp_nat_mul]; norm_num
    rw [this]
    nlinarith [Real.exp_pos 1]
  have := Real.two_le_pi
  linarith

/-- A sample of two points that meets the hypotheses. -/
example : (lineCfgEx 1 0 [1] true).numVar ≤ 3 ∧ ∀ x ∈ [[1, 1, 1], [1 / 2, 0, (2 : ℝ)]], ∀ t q, q < 3 →
    3 * t + q < (lineCfgEx 1 0 [1] true).numVar →
    ((lineCfgEx 1 0 [1] true).varRange q).1 ≤ x.getD (3 * t + q) 0 ∧
      x.getD (3 * t + q) 0 ≤ ((lineCfgEx 1 0 [1] true).varRange q).2 := by
  have hn : (lineCfgEx 1 0 [1] true).numVar = 3 := rfl
  have l10 : 1 ≤ Real.log 10 := by
    rw [Real.le_log_iff_exp_le (by norm_num)]
    have := Real.exp_one_lt_d9
    linarith
  have l11 : 1 ≤ Real.log (1 + 10) := l10.trans (Real.log_le_log (by norm_num) (by norm_num))
  have ls : Real.log (1 / 10 ^ 4 : ℝ) ≤ 0 := Real.log_nonpos (by norm_num) (by norm_num)
  refine ⟨by rw [hn], fun x hx t q hq ht => ?_⟩
  rw [hn] at ht
  obtain rfl : t = 0 := by omega
  have ht2 : (2 : ℝ) ≤ ((lineCfgEx 1 0 [1] true).varRange 2).2 := log_tspan_big
  have h0 : (lineCfgEx 1 0 [1] true).varRange 0 = (Real.log 1, Real.log (1 + 10)) := rfl
  have h1 : (lineCfgEx 1 0 [1] true).varRange 1 = (Real.log (1 / 10 ^ 4), Real.log 10) := rfl
  have h2 : ((lineCfgEx 1 0 [1] true).varRange 2).1 = 0 := Real.log_one
  simp only [List.mem_cons, List.not_mem_nil, or_false] at hx
  obtain rfl | rfl | rfl : q = 0 ∨ q = 1 ∨ q = 2 := by omega
  all_goals rcases hx with rfl | rfl <;>
    simp only [h0, h1, h2, Real.log_one, List.getD_cons_zero, List.getD_cons_succ, Nat.mul_zero, Nat.zero_add] <;>
    constructor <;> first | linarith | exact le_trans (by norm_num) l11

end Mica
