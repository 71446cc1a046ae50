import Verif.Model.Postprocess
import Verif.Proof.Sort
import Mathlib.Analysis.SpecialFunctions.Log.NegMulLog
import Mathlib.Analysis.Convex.Jensen
import Mathlib.Tactic

/-! Helper lemmas about post-processing. -/

namespace Mica

/-! ## Sums and maxima -/

theorem foldl_add_eq {α : Type*} (f : α → ℝ) (l : List α) (a : ℝ) :
    l.foldl (fun s y => s + f y) a = a + (l.map f).sum := by
  induction l generalizing a with
  | nil => simp
  | cons x l ih => simp [ih, add_assoc]

theorem maxLoop_ge (x0 : ℝ) (l : List ℝ) : x0 ≤ maxLoop x0 l ∧ ∀ y ∈ l, y ≤ maxLoop x0 l := by
  unfold maxLoop
  induction l generalizing x0 with
  | nil => simp
  | cons a l ih =>
    obtain ⟨h1, h2⟩ := ih (max x0 a)
    refine ⟨le_trans (le_max_left _ _) h1, ?_⟩
    intro y hy
    rcases List.mem_cons.1 hy with rfl | hy
    · exact le_trans (le_max_right _ _) h1
    · exact h2 y hy

theorem maxLoop_mem (x0 : ℝ) (l : List ℝ) : maxLoop x0 l = x0 ∨ maxLoop x0 l ∈ l := by
  unfold maxLoop
  induction l generalizing x0 with
  | nil => simp
  | cons a l ih =>
    rcases ih (max x0 a) with h | h
    · rcases max_choice x0 a with h' | h'
      · left; simp only [List.foldl_cons]; rw [h, h']
      · right; simp only [List.foldl_cons]; rw [h, h']; simp
    · right; simp only [List.foldl_cons]; exact List.mem_cons_of_mem _ h

theorem sum_exp_pos {l : List ℝ} (h : l ≠ []) : 0 < (l.map Real.exp).sum := by
  cases l with
  | nil => exact absurd rfl h
  | cons a l =>
    have h2 : 0 ≤ (l.map Real.exp).sum := by
      apply List.sum_nonneg
      intro x hx
      obtain ⟨y, _, rfl⟩ := List.mem_map.1 hx
      exact (Real.exp_pos y).le
    simp only [List.map_cons, List.sum_cons]
    have := Real.exp_pos a
    linarith

theorem sum_map_exp_sub (l : List ℝ) (c : ℝ) :
    (l.map (fun y => Real.exp (y - c))).sum = (l.map Real.exp).sum * Real.exp (-c) := by
  induction l with
  | nil => simp
  | cons a l ih => simp only [List.map_cons, List.sum_cons, ih, add_mul, ← Real.exp_add]; rfl

theorem logsumexp_ok {l : List ℝ} (h : l ≠ []) :
    logsumexp l = .ok (Real.log (l.map Real.exp).sum) := by
  cases l with
  | nil => exact absurd rfl h
  | cons a l =>
    simp only [logsumexp]
    rw [foldl_add_eq, zero_add, sum_map_exp_sub, Real.log_mul (sum_exp_pos h).ne' (Real.exp_pos _).ne',
      Real.log_exp]
    simp

/-! ## The evidence -/

theorem sum_exp_normalised {l : List ℝ} (h : l ≠ []) :
    ((l.map (· - Real.log (l.map Real.exp).sum)).map Real.exp).sum = 1 := by
  rw [List.map_map]
  have : (Real.exp ∘ fun x => x - Real.log (l.map Real.exp).sum)
      = fun y => Real.exp (y - Real.log (l.map Real.exp).sum) := rfl
  rw [this, sum_map_exp_sub, Real.exp_neg, Real.exp_log (sum_exp_pos h)]
  exact mul_inv_cancel₀ (sum_exp_pos h).ne'

/-- Entropy of a distribution given by logarithms is non-negative. -/
theorem entropy_nonneg {l : List ℝ} (h1 : (l.map Real.exp).sum = 1) :
    0 ≤ (l.map (fun x => -x * Real.exp x)).sum := by
  apply List.sum_nonneg
  intro y hy
  obtain ⟨x, hx, rfl⟩ := List.mem_map.1 hy
  have : Real.exp x ≤ 1 := by
    rw [← h1]
    apply List.single_le_sum
    · intro y hy
      obtain ⟨z, _, rfl⟩ := List.mem_map.1 hy
      exact (Real.exp_pos z).le
    · exact List.mem_map_of_mem hx
  have h0 : x ≤ 0 := Real.exp_le_one_iff.1 this
  have := Real.exp_pos x
  nlinarith

/-- Gibbs' inequality for lists of (log-probability, log-weight) pairs. -/
theorem gibbs_list (l : List (ℝ × ℝ)) :
    (l.map (fun e => Real.exp e.1 * (e.2 - e.1))).sum ≤
      (l.map (fun e => Real.exp e.2)).sum - (l.map (fun e => Real.exp e.1)).sum := by
  induction l with
  | nil => simp
  | cons a l ih =>
    simp only [List.map_cons, List.sum_cons]
    have h : Real.exp a.1 * (a.2 - a.1) ≤ Real.exp a.2 - Real.exp a.1 := by
      have h := Real.add_one_le_exp (a.2 - a.1)
      have hp := Real.exp_pos a.1
      have : Real.exp a.2 = Real.exp a.1 * Real.exp (a.2 - a.1) := by rw [← Real.exp_add]; ring_nf
      rw [this]; nlinarith
    linarith

/-- Entropy is at most the logarithm of the number of items. -/
theorem entropy_le_log {l : List ℝ} (h0 : l ≠ []) (h1 : (l.map Real.exp).sum = 1) :
    (l.map (fun x => -x * Real.exp x)).sum ≤ Real.log l.length := by
  have hn : (0 : ℝ) < l.length := by
    have := List.length_pos_iff.2 h0
    exact_mod_cast this
  have h := gibbs_list (l.map (fun x => (x, -Real.log l.length)))
  simp only [List.map_map, Function.comp_def] at h
  rw [h1] at h
  have e1 : (l.map (fun _ => Real.exp (-Real.log l.length))).sum = 1 := by
    rw [List.map_const', List.sum_replicate, Real.exp_neg, Real.exp_log hn, nsmul_eq_mul]
    exact mul_inv_cancel₀ hn.ne'
  rw [e1] at h
  have e2 : (l.map (fun x => Real.exp x * (-Real.log l.length - x))).sum
      = (l.map (fun x => -x * Real.exp x)).sum - Real.log l.length * (l.map Real.exp).sum := by
    clear h e1 hn h1 h0
    generalize Real.log l.length = c
    induction l with
    | nil => simp
    | cons a l ih => simp only [List.map_cons, List.sum_cons, ih]; ring
  rw [e2, h1] at h
  linarith

/-- What `evidence` computes, in terms of sums. -/
theorem evidence_ok {logp logl : List ℝ} (h0 : logp ≠ []) (hlen : logp.length = logl.length) :
    ∃ z h e lP, evidence logp logl = .ok (z, h, e, lP) ∧ lP.length = logp.length ∧
      (lP.map Real.exp).sum = 1 ∧
      lP = (List.zipWith (· + ·) (logp.map (· - Real.log (logp.map Real.exp).sum)) logl).map (· - z) ∧
      z = Real.log ((List.zipWith (· + ·) (logp.map (· - Real.log (logp.map Real.exp).sum))
        logl).map Real.exp).sum ∧
      h = -z + ((lP.zip logl).map (fun e => Real.exp e.1 * e.2)).sum ∧
      e = Real.exp (lP.map (fun x => -x * Real.exp x)).sum := by
  have hP : List.zipWith (· + ·) (logp.map (· - Real.log (logp.map Real.exp).sum)) logl ≠ [] := by
    intro h
    have := congrArg List.length h
    simp only [List.length_zipWith, List.length_map, List.length_nil] at this
    have := List.length_pos_iff.2 h0
    omega
  have hl : (List.zipWith (· + ·) (logp.map (· - Real.log (logp.map Real.exp).sum)) logl).length
      = logp.length := by
    simp only [List.length_zipWith, List.length_map]; omega
  unfold evidence
  rw [logsumexp_ok h0]
  simp only [Res.ok_bind]
  rw [logsumexp_ok hP]
  simp only [Res.ok_bind]
  refine ⟨_, _, _, _, rfl, ?_, ?_, rfl, rfl, ?_, ?_⟩
  · simp only [List.length_map]; exact hl
  · exact sum_exp_normalised hP
  · rw [foldl_add_eq]
  · rw [foldl_add_eq, zero_add]

/-- Sum rule used for the information. -/
theorem zip_info (lp logl : List ℝ) (z : ℝ) (hlen : lp.length = logl.length) :
    (((List.zipWith (· + ·) lp logl).map (· - z)).zip logl).map (fun e => Real.exp e.1 * e.2)
    = (((List.zipWith (· + ·) lp logl).map (· - z)).zip lp).map
        (fun e => z * Real.exp e.1 - Real.exp e.1 * (e.2 - e.1)) := by
  induction lp generalizing logl with
  | nil => simp
  | cons a l ih =>
    cases logl with
    | nil => simp at hlen
    | cons b logl =>
      simp only [List.zipWith_cons_cons, List.map_cons, List.zip_cons_cons]
      rw [ih logl (by simpa using hlen)]
      congr 1
      ring

/-- The information is non-negative. -/
theorem info_nonneg {logp logl : List ℝ} (h0 : logp ≠ []) (hlen : logp.length = logl.length)
    {z h e : ℝ} {lP : List ℝ} (hev : evidence logp logl = .ok (z, h, e, lP)) : 0 ≤ h := by
  obtain ⟨z', h', e', lP', heq, hl, hs, hlP, hz, hh, -⟩ := evidence_ok h0 hlen
  rw [hev] at heq
  cases heq
  set lp := logp.map (· - Real.log (logp.map Real.exp).sum) with hlp
  have hsp : (lp.map Real.exp).sum = 1 := sum_exp_normalised h0
  have hlpl : lp.length = logl.length := by simp [hlp, hlen]
  rw [hh, hlP, zip_info lp logl z hlpl, ← hlP]
  have hg := gibbs_list (lP.zip lp)
  have hlPlp : lP.length = lp.length := by simp [hl, hlp]
  have e1 : (lP.zip lp).map (fun e => Real.exp e.1) = lP.map Real.exp := by
    have : (fun e : ℝ × ℝ => Real.exp e.1) = Real.exp ∘ Prod.fst := rfl
    rw [this, ← List.map_map, List.map_fst_zip hlPlp.le]
  have e2 : (lP.zip lp).map (fun e => Real.exp e.2) = lp.map Real.exp := by
    have : (fun e : ℝ × ℝ => Real.exp e.2) = Real.exp ∘ Prod.snd := rfl
    rw [this, ← List.map_map, List.map_snd_zip hlPlp.ge]
  rw [e1, e2, hs, hsp] at hg
  have e3 : ((lP.zip lp).map (fun e => z * Real.exp e.1 - Real.exp e.1 * (e.2 - e.1))).sum
      = z * ((lP.zip lp).map (fun e => Real.exp e.1)).sum
        - ((lP.zip lp).map (fun e => Real.exp e.1 * (e.2 - e.1))).sum := by
    generalize lP.zip lp = l
    induction l with
    | nil => simp
    | cons a l ih => simp only [List.map_cons, List.sum_cons, ih]; ring
  rw [e3, e1, hs]
  linarith

/-! ## Prior masses -/

theorem clog_pos {x : ℝ} (h : 0 < x) : clog x = some (Real.log x) := by simp [clog, h]

/-- `logx` for a level with at least two samples. -/
theorem logxAt_spec {xmax xmin : ℝ} (hx : xmin < xmax) {n j : ℕ} (hn : 2 ≤ n) (hj : j < n) :
    ∃ x, logxAt xmax xmin n j = some x ∧ xmin < x ∧ x < xmax ∧
      Real.exp x = Real.exp xmin + (Real.exp xmax - Real.exp xmin) * (((n : ℝ) - j) / (n + 1)) := by
  have hn' : (2 : ℝ) ≤ n := by exact_mod_cast hn
  have hj' : (j : ℝ) + 1 ≤ n := by exact_mod_cast hj
  have hj0 : (0 : ℝ) ≤ j := Nat.cast_nonneg j
  have hu : (1 / (1 + (n : ℝ)) + (1 - 2 / (1 + (n : ℝ))) * (((n : ℝ) - 1 - j) / ((n : ℝ) - 1)))
      = ((n : ℝ) - j) / (n + 1) := by
    have : (n : ℝ) - 1 ≠ 0 := by linarith
    field_simp
    ring
  set v := ((n : ℝ) - j) / (n + 1) with hv
  have hv0 : 0 < v := by rw [hv]; apply div_pos <;> linarith
  have hv1 : v < 1 := by rw [hv, div_lt_one (by linarith)]; linarith
  set m := Real.exp (xmin - xmax) with hm
  have hm0 : 0 < m := Real.exp_pos _
  have hm1 : m < 1 := by rw [hm, Real.exp_lt_one_iff]; linarith
  have hU : 0 < m + (1 - m) * v := by nlinarith
  have hU1 : m + (1 - m) * v < 1 := by nlinarith
  have hUm : m < m + (1 - m) * v := by nlinarith
  have hne : n ≠ 1 := by omega
  refine ⟨xmax + Real.log (m + (1 - m) * v), ?_, ?_, ?_, ?_⟩
  · simp only [logxAt, uFrac, if_neg hne, Option.bind_some]
    rw [hu, clog_pos hU, Option.map_some]
  · have := Real.log_lt_log hm0 hUm
    rw [hm, Real.log_exp] at this
    rw [hm]; linarith
  · have := Real.log_neg hU hU1
    linarith
  · rw [Real.exp_add, Real.exp_log hU, hm, Real.exp_sub]
    have := (Real.exp_pos xmax).ne'
    field_simp

theorem logdiffexp_spec {a b : ℝ} (h : b < a) :
    ∃ x, logdiffexp a b = some x ∧ Real.exp x = Real.exp a - Real.exp b := by
  have h1 : 0 < Real.exp (a - a) - Real.exp (b - a) := by
    have : Real.exp (b - a) < Real.exp (a - a) := Real.exp_lt_exp.2 (by linarith)
    linarith
  refine ⟨_, by rw [logdiffexp, clog_pos h1]; rfl, ?_⟩
  rw [Real.exp_add, Real.exp_log h1, sub_mul, ← Real.exp_add, ← Real.exp_add]
  ring_nf

/-- The unnormalised prior mass of the sample of rank `j`: half the difference of the neighbouring
prior masses, positive, and never more than half the mass between the two levels. -/
theorem logpAt_spec {xmax xmin : ℝ} (hx : xmin < xmax) {n j : ℕ} (hj : j < n) :
    ∃ r l p, rightAt xmax xmin n j = some r ∧ leftAt xmax xmin n j = some l ∧
      logpAt xmax xmin n j = some p ∧ l < r ∧ xmin ≤ l ∧ r ≤ xmax ∧
      Real.exp p = (Real.exp r - Real.exp l) / 2 := by
  have hr : ∃ r, rightAt xmax xmin n j = some r ∧ r ≤ xmax ∧
      (j = 0 ∧ r = xmax ∨ j ≠ 0 ∧ 2 ≤ n ∧
        Real.exp r = Real.exp xmin + (Real.exp xmax - Real.exp xmin) * (((n : ℝ) - (j - 1 : ℕ)) / (n + 1))) := by
    by_cases h : j = 0
    · exact ⟨xmax, by simp [rightAt, h], le_rfl, Or.inl ⟨h, rfl⟩⟩
    · obtain ⟨x, e, -, h2, h3⟩ := logxAt_spec hx (n := n) (j := j - 1) (by omega) (by omega)
      exact ⟨x, by simp [rightAt, h, e], h2.le, Or.inr ⟨h, by omega, h3⟩⟩
  have hl : ∃ l, leftAt xmax xmin n j = some l ∧ xmin ≤ l ∧
      (j = n - 1 ∧ l = xmin ∨ j ≠ n - 1 ∧
        Real.exp l = Real.exp xmin + (Real.exp xmax - Real.exp xmin) * (((n : ℝ) - (j + 1 : ℕ)) / (n + 1))) := by
    by_cases h : j = n - 1
    · exact ⟨xmin, by simp [leftAt, h], le_rfl, Or.inl ⟨h, rfl⟩⟩
    · obtain ⟨x, e, h1, -, h3⟩ := logxAt_spec hx (n := n) (j := j + 1) (by omega) (by omega)
      exact ⟨x, by simp [leftAt, h, e], h1.le, Or.inr ⟨h, h3⟩⟩
  obtain ⟨r, er, hrx, hr⟩ := hr
  obtain ⟨l, el, hlx, hl⟩ := hl
  have hE : Real.exp xmin < Real.exp xmax := Real.exp_lt_exp.2 hx
  have hn0 : (0 : ℝ) < (n : ℝ) + 1 := by positivity
  have hjn : (j : ℝ) + 1 ≤ n := by exact_mod_cast hj
  have hj0 : (0 : ℝ) ≤ j := Nat.cast_nonneg j
  have hlr : l < r := by
    rw [← Real.exp_lt_exp]
    rcases hr with ⟨hj0', rfl⟩ | ⟨hj0', hn2, hr⟩
    · rcases hl with ⟨_, rfl⟩ | ⟨h, hl⟩
      · exact hE
      · rw [hl]
        have : ((n : ℝ) - (j + 1 : ℕ)) / (n + 1) < 1 := by
          rw [div_lt_one hn0]; push_cast; linarith
        nlinarith
    · have hjc : ((j - 1 : ℕ) : ℝ) = j - 1 := by
        rw [Nat.cast_sub (by omega)]; simp
      rw [hr, hjc]
      have h1 : 0 < ((n : ℝ) - (j - 1)) / (n + 1) := by apply div_pos <;> linarith
      rcases hl with ⟨_, rfl⟩ | ⟨h, hl⟩
      · nlinarith
      · rw [hl]
        have : ((n : ℝ) - (j + 1 : ℕ)) / (n + 1) < ((n : ℝ) - (j - 1)) / (n + 1) := by
          apply div_lt_div_of_pos_right _ hn0; push_cast; linarith
        nlinarith
  obtain ⟨x, ex, hxx⟩ := logdiffexp_spec hlr
  refine ⟨r, l, Real.log (1 / 2) + x, er, el, ?_, hlr, hlx, hrx, ?_⟩
  · simp [logpAt, er, el, ex]
  · rw [Real.exp_add, hxx, Real.exp_log (by norm_num)]; ring

/-! ## Assignment of ranks -/

theorem mapRes_forall2 {α β : Type} {f : α → Res β} {P : α → β → Prop} (l : List α)
    (h : ∀ a ∈ l, ∃ b, f a = .ok b ∧ P a b) : ∃ bs, mapRes f l = .ok bs ∧ List.Forall₂ P l bs := by
  induction l with
  | nil => exact ⟨[], rfl, .nil⟩
  | cons a l ih =>
    obtain ⟨b, hb, hP⟩ := h a (by simp)
    obtain ⟨bs, hbs, hF⟩ := ih (fun x hx => h x (by simp [hx]))
    exact ⟨b :: bs, by simp [mapRes, hb, hbs], .cons hP hF⟩

theorem mapRes_eq_ok {α β : Type} {f : α → Res β} {l : List α} {bs : List β}
    (h : mapRes f l = .ok bs) : List.Forall₂ (fun a b => f a = .ok b) l bs := by
  induction l generalizing bs with
  | nil => simp only [mapRes, Res.ok.injEq] at h; subst h; exact .nil
  | cons a l ih =>
    simp only [mapRes] at h
    obtain ⟨b, hb, h⟩ := Res.bind_eq_ok.1 h
    obtain ⟨cs, hcs, h⟩ := Res.bind_eq_ok.1 h
    cases h
    exact .cons hb (ih hcs)

theorem cellAfter_of_mem {β : Type} {ws : List (ℕ × β)} (hnd : (ws.map Prod.fst).Nodup) {j : ℕ} {c : β}
    (h : (j, c) ∈ ws) : cellAfter ws j = .ok c := by
  unfold cellAfter
  have hm : (j, c) ∈ ws.filter (fun w => w.1 = j) := List.mem_filter.2 ⟨h, by simp⟩
  cases hl : (ws.filter (fun w => w.1 = j)).getLast? with
  | none => rw [List.getLast?_eq_none_iff.1 hl] at hm; simp at hm
  | some w =>
    have hw := List.mem_filter.1 (List.mem_of_getLast? hl)
    have : w = (j, c) := List.inj_on_of_nodup_map hnd hw.1 h (by simpa using hw.2)
    rw [this]

/-- Which samples belong to a level. -/
theorem mem_membersOf {info : List PInfo} {f : PInfo → ℕ} {i : ℕ} {m : PSample} :
    m ∈ membersOf info (info.map f) i ↔
      ∃ p, info[m.id]? = some p ∧ f p = i ∧ m.logl = p.logl ∧ m.tie = p.tie := by
  simp only [membersOf, List.mem_map, List.mem_filter, decide_eq_true_eq]
  constructor
  · rintro ⟨⟨⟨p, q⟩, k⟩, ⟨h1, h2⟩, rfl⟩
    have h1 := List.mem_zipIdx_iff_getElem?.1 h1
    simp only [List.getElem?_zip_eq_some, List.getElem?_map, Option.map_eq_some_iff] at h1
    obtain ⟨hp, p', hp', rfl⟩ := h1
    rw [hp] at hp'; cases hp'
    exact ⟨p, hp, h2, rfl, rfl⟩
  · rintro ⟨p, hp, hf, h1, h2⟩
    refine ⟨((p, f p), m.id), ⟨List.mem_zipIdx_iff_getElem?.2 ?_, hf⟩, ?_⟩
    · simp [List.getElem?_zip_eq_some, hp]
    · cases m; simp_all

theorem membersOf_nodup (info : List PInfo) (sw : List ℕ) (i : ℕ) :
    ((membersOf info sw i).map PSample.id).Nodup := by
  simp only [membersOf, List.map_map]
  have : (PSample.id ∘ fun e : (PInfo × ℕ) × ℕ => ({ logl := e.1.1.logl, tie := e.1.1.tie, id := e.2 } : PSample))
      = Prod.snd := rfl
  rw [this]
  apply List.Nodup.sublist (List.Sublist.map _ List.filter_sublist)
  rw [List.zipIdx_map_snd]
  exact List.nodup_range'

theorem levelWrites_fst (levels : List PLevel) (info : List PInfo) (sw : List ℕ) (i : ℕ) (l : PLevel) :
    (levelWrites levels info sw i l).map Prod.fst =
      (msortC cmpSample (membersOf info sw i)).map PSample.id := by
  simp only [levelWrites, List.map_map]
  have : (Prod.fst ∘ fun e : PSample × ℕ =>
      (e.1.id, logxAt l.logX (lowerX levels i) (msortC cmpSample (membersOf info sw i)).length e.2,
        logpAt l.logX (lowerX levels i) (msortC cmpSample (membersOf info sw i)).length e.2))
      = PSample.id ∘ Prod.fst := rfl
  rw [this, ← List.map_map, List.zipIdx_map_fst]

theorem allWrites_nodup (levels : List PLevel) (info : List PInfo) (f : PInfo → ℕ) :
    ((allWrites levels info (info.map f)).map Prod.fst).Nodup := by
  unfold allWrites
  rw [List.map_flatMap, List.nodup_flatMap]
  constructor
  · intro e _
    rw [levelWrites_fst]
    exact ((msortC_perm _ _).map _).nodup_iff.2 (membersOf_nodup _ _ _)
  · have hnd : (levels.zipIdx.map Prod.snd).Nodup := by
      rw [List.zipIdx_map_snd]; exact List.nodup_range'
    have := List.pairwise_map.1 hnd
    refine this.imp ?_
    intro a b hab
    simp only [Function.onFun, levelWrites_fst]
    intro j hj1 hj2
    obtain ⟨m1, hm1, rfl⟩ := List.mem_map.1 hj1
    obtain ⟨m2, hm2, h12⟩ := List.mem_map.1 hj2
    obtain ⟨p1, hp1, hf1, -⟩ := mem_membersOf.1 ((msortC_perm _ _).mem_iff.1 hm1)
    obtain ⟨p2, hp2, hf2, -⟩ := mem_membersOf.1 ((msortC_perm _ _).mem_iff.1 hm2)
    rw [h12, hp1] at hp2
    cases hp2
    exact hab (hf1.symm.trans hf2)

/-- The sorted samples of level `i`. -/
noncomputable def sortedOf (levels : List PLevel) (info : List PInfo) (i : ℕ) : List PSample :=
  msortC cmpSample (membersOf info (info.map (sandwich levels)) i)

theorem sandwichGo_lt (logl : ℝ) (ls : List PLevel) (j acc n : ℕ) (hn : j + ls.length ≤ n)
    (hacc : acc < n) : sandwichGo logl j acc ls < n := by
  induction ls generalizing j acc with
  | nil => simpa [sandwichGo] using hacc
  | cons l ls ih =>
    simp only [List.length_cons] at hn
    simp only [sandwichGo]
    apply ih
    · omega
    · split <;> omega

theorem sandwich_lt {levels : List PLevel} {p : PInfo} (h : p.level < levels.length) :
    sandwich levels p < levels.length := by
  apply sandwichGo_lt
  · simp; omega
  · exact h

/-- The levels passed to post-processing: prior masses strictly decreasing, above the floor. -/
def GoodLevels (levels : List PLevel) : Prop :=
  levels.Pairwise (fun a b => b.logX < a.logX) ∧ ∀ l ∈ levels, logXFloor < l.logX

theorem lowerX_lt {levels : List PLevel} (hg : GoodLevels levels) {i : ℕ} {l : PLevel}
    (h : levels[i]? = some l) : lowerX levels i < l.logX := by
  unfold lowerX
  have hmem := List.mem_of_getElem? h
  split
  · exact hg.2 l hmem
  · split
    · rename_i l' h'
      obtain ⟨hi, rfl⟩ := List.getElem?_eq_some_iff.1 h
      obtain ⟨hi', rfl⟩ := List.getElem?_eq_some_iff.1 h'
      exact List.pairwise_iff_getElem.1 hg.1 i (i + 1) hi hi' (by omega)
    · exact hg.2 l hmem

/-- Every sample gets the values that belong to its rank in its level. -/
theorem massArrays_spec {levels : List PLevel} (hg : GoodLevels levels) {info : List PInfo}
    (hlev : ∀ p ∈ info, p.level < levels.length) :
    ∃ logp logx, massArrays levels info = .ok (logp, logx) ∧
      logp.length = info.length ∧ logx.length = info.length ∧
      ∀ (j : ℕ) (p : PInfo), info[j]? = some p → ∃ (k : ℕ) (l : PLevel) (q : ℝ) (m : PSample),
        levels[sandwich levels p]? = some l ∧
        (sortedOf levels info (sandwich levels p))[k]? = some m ∧ m.id = j ∧ m.logl = p.logl ∧
        logx[j]? = some (logxAt l.logX (lowerX levels (sandwich levels p))
          (sortedOf levels info (sandwich levels p)).length k) ∧
        logp[j]? = some q ∧
        logpAt l.logX (lowerX levels (sandwich levels p))
          (sortedOf levels info (sandwich levels p)).length k = some q := by
  set ws := allWrites levels info (info.map (sandwich levels)) with hws
  -- one cell
  have hcell : ∀ j ∈ List.range info.length, ∃ c, cellAfter ws j = .ok c ∧
      (∀ p, info[j]? = some p → ∃ (k : ℕ) (l : PLevel) (q : ℝ) (m : PSample),
        levels[sandwich levels p]? = some l ∧
        (sortedOf levels info (sandwich levels p))[k]? = some m ∧ m.id = j ∧ m.logl = p.logl ∧
        c.1 = logxAt l.logX (lowerX levels (sandwich levels p))
          (sortedOf levels info (sandwich levels p)).length k ∧
        c.2 = some q ∧
        logpAt l.logX (lowerX levels (sandwich levels p))
          (sortedOf levels info (sandwich levels p)).length k = some q) := by
    intro j hj
    have hj := List.mem_range.1 hj
    set p := info[j] with hp
    have hpj : info[j]? = some p := List.getElem?_eq_getElem hj
    have hsl := sandwich_lt (hlev p (List.getElem_mem hj))
    set i := sandwich levels p with hi
    have hm : (⟨p.logl, p.tie, j⟩ : PSample) ∈ sortedOf levels info i := by
      refine (msortC_perm _ _).mem_iff.2 (mem_membersOf.2 ⟨p, hpj, hi.symm, rfl, rfl⟩)
    obtain ⟨k, hk, hkm⟩ := List.mem_iff_getElem.1 hm
    have hl : levels[i]? = some levels[i] := List.getElem?_eq_getElem hsl
    obtain ⟨_, _, q, _, _, hq, _⟩ := logpAt_spec (lowerX_lt hg hl) hk
    have hw : (j, logxAt levels[i].logX (lowerX levels i) (sortedOf levels info i).length k, some q) ∈ ws := by
      rw [hws, allWrites, List.mem_flatMap]
      refine ⟨(levels[i], i), List.mem_zipIdx_iff_getElem?.2 hl, ?_⟩
      simp only [levelWrites, List.mem_map]
      refine ⟨(⟨p.logl, p.tie, j⟩, k), List.mem_zipIdx_iff_getElem?.2 ?_, ?_⟩
      · show (sortedOf levels info i)[k]? = _
        rw [List.getElem?_eq_getElem hk, hkm]
      · simp only [Prod.mk.injEq, true_and]
        exact ⟨rfl, hq⟩
    refine ⟨_, cellAfter_of_mem (allWrites_nodup _ _ _) hw, ?_⟩
    intro p' hp'
    rw [hpj] at hp'; cases hp'
    exact ⟨k, levels[i], q, ⟨p.logl, p.tie, j⟩, hl, by rw [List.getElem?_eq_getElem hk, hkm], rfl, rfl,
      rfl, rfl, hq⟩
  obtain ⟨cells, hcells, hF⟩ := mapRes_forall2 _ hcell
  have hlen : cells.length = info.length := by
    have := hF.length_eq; simpa using this.symm
  have hfin : ∀ c ∈ cells, ∃ b : ℝ, finiteOr c.2 = .ok b ∧ c.2 = some b := by
    intro c hc
    obtain ⟨j, hj, rfl⟩ := List.mem_iff_getElem.1 hc
    have hP := List.forall₂_iff_get.1 hF |>.2 j (by simp; omega) hj
    simp only [List.get_eq_getElem, List.getElem_range] at hP
    obtain ⟨k, l, q, m, _, _, _, _, _, hq, _⟩ := hP _ (List.getElem?_eq_getElem (by omega))
    exact ⟨q, by rw [hq]; rfl, hq⟩
  obtain ⟨logp, hlogp, hF2⟩ := mapRes_forall2 _ hfin
  refine ⟨logp, cells.map (·.1), ?_, ?_, ?_, ?_⟩
  · simp only [massArrays]
    rw [← hws, hcells]
    simp only [Res.ok_bind]
    rw [hlogp]; rfl
  · rw [← hF2.length_eq, hlen]
  · simp [hlen]
  · intro j p hp
    obtain ⟨hj, rfl⟩ := List.getElem?_eq_some_iff.1 hp
    have hP := List.forall₂_iff_get.1 hF |>.2 j (by simpa using hj) (by omega)
    simp only [List.get_eq_getElem, List.getElem_range] at hP
    obtain ⟨k, l, q, m, h1, h2, h3, h4, h5, h6, h7⟩ := hP _ hp
    have hQ := List.forall₂_iff_get.1 hF2 |>.2 j (by omega) (by rw [← hF2.length_eq]; omega)
    simp only [List.get_eq_getElem] at hQ
    refine ⟨k, l, q, m, h1, h2, h3, h4, ?_, ?_, h7⟩
    · rw [List.getElem?_map, List.getElem?_eq_getElem (by omega : j < cells.length)]
      simp [h5]
    · rw [List.getElem?_eq_getElem (by rw [← hF2.length_eq]; omega)]
      rw [h6] at hQ
      simpa using hQ.symm

/-- Higher likelihood, higher rank. -/
theorem sortedOf_sorted (levels : List PLevel) (info : List PInfo) (i : ℕ) :
    (sortedOf levels info i).Pairwise (fun a b => a.logl ≤ b.logl) := by
  have := msortC_sorted cmpSample (fun a b => a.logl < b.logl ∨ a.logl = b.logl ∧ a.tie ≤ b.tie) ?_ ?_ ?_
    (membersOf info (info.map (sandwich levels)) i)
  · exact this.imp (by rintro a b (h | ⟨h, _⟩); exacts [h.le, h.le])
  · rintro a b c (h1 | ⟨h1, h1'⟩) (h2 | ⟨h2, h2'⟩)
    · exact Or.inl (h1.trans h2)
    · exact Or.inl (h2 ▸ h1)
    · exact Or.inl (h1 ▸ h2)
    · exact Or.inr ⟨h1.trans h2, h1'.trans h2'⟩
  · intro a b h
    unfold cmpSample at h
    split at h
    · norm_num at h
    · split at h
      · norm_num at h
      · rename_i h1 h2
        rcases lt_or_eq_of_le (not_lt.1 h1) with h3 | h3
        · exact Or.inl h3
        · exact Or.inr ⟨h3, by by_contra h4; exact h2 ⟨h3, not_le.1 h4⟩⟩
  · intro a b h
    unfold cmpSample at h
    split at h
    · rename_i h1; exact Or.inl h1
    · split at h
      · rename_i h2; exact Or.inr ⟨h2.1.symm, h2.2.le⟩
      · norm_num at h

end Mica
