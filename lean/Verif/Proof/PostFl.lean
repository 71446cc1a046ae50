import Verif.Model.PostFl
import Verif.Proof.Postprocess
import Verif.Proof.Vmap

/-! Helper lemmas: the evidence from likelihoods that need not be numbers. -/

namespace Mica

open Classical

namespace Fl

theorem sub_nan (a : Fl) : sub a nan = nan := by simp [sub, neg, add_nan]

theorem nan_sub (a : Fl) : sub nan a = nan := by simp [sub, nan_add]

theorem mul_nan (a : Fl) : mul a nan = nan := by cases a <;> rfl

theorem foldl_from_nan {α : Type} (g : α → Fl) (l : List α) :
    l.foldl (fun a x => add a (g x)) nan = nan := by
  induction l with
  | nil => rfl
  | cons x l ih => rw [List.foldl_cons, nan_add, ih]

theorem foldl_nan {α : Type} (g : α → Fl) {l : List α} {x : α} (hx : x ∈ l) (hg : g x = nan) (a : Fl) :
    l.foldl (fun a x => add a (g x)) a = nan := by
  induction l generalizing a with
  | nil => cases hx
  | cons y l ih =>
    rw [List.foldl_cons]
    rcases List.mem_cons.1 hx with rfl | hx
    · rw [hg, add_nan, foldl_from_nan]
    · exact ih hx _

theorem fmax_inf_left (b : Fl) : fmax (inf false) b = inf false := by
  cases b with
  | fin => simp [fmax, lt]
  | inf s => cases s <;> simp [fmax, lt]
  | nan => rfl

theorem fmax_inf_right (a : Fl) : fmax a (inf false) = inf false := by
  cases a with
  | fin => simp [fmax, lt]
  | inf s => cases s <;> simp [fmax, lt]
  | nan => rfl

theorem foldl_fmax_from_inf (l : List Fl) : l.foldl fmax (inf false) = inf false := by
  induction l with
  | nil => rfl
  | cons x l ih => rw [List.foldl_cons, fmax_inf_left, ih]

theorem foldl_fmax_inf {l : List Fl} (h : inf false ∈ l) (a : Fl) : l.foldl fmax a = inf false := by
  induction l generalizing a with
  | nil => cases h
  | cons x l ih =>
    rw [List.foldl_cons]
    rcases List.mem_cons.1 h with rfl | h
    · rw [fmax_inf_right, foldl_fmax_from_inf]
    · exact ih h _

/-- The term of one sample in the effective sample size, after normalisation. -/
theorem term_nan {v : Fl} (hv : v = nan ∨ v = inf true) (z : Fl) :
    mul (neg (sub v z)) (exp (sub v z)) = nan := by
  rcases hv with rfl | rfl
  · rw [nan_sub]; rfl
  · cases z with
    | fin x => simp [sub, neg, add, exp, mul, timesInf]
    | inf s => cases s <;> simp [sub, neg, add, exp, mul, timesInf]
    | nan => rw [sub_nan]; rfl

end Fl

theorem fLogsumexp_inf {l : List Fl} (h : Fl.inf false ∈ l) : fLogsumexp l = .ok .nan := by
  cases l with
  | nil => cases h
  | cons x l =>
    simp only [fLogsumexp]
    rw [Fl.foldl_fmax_inf h, Fl.foldl_nan (fun y => Fl.exp (Fl.sub y (.inf false))) h rfl]
    rfl

theorem fLogsumexp_ok {l : List Fl} (h : l ≠ []) : ∃ z, fLogsumexp l = .ok z := by
  cases l with
  | nil => exact absurd rfl h
  | cons x l => exact ⟨_, rfl⟩

theorem ess_nan {logp : List ℝ} {logl : List Fl} (hlen : logp.length = logl.length) {v : Fl}
    (hv : v ∈ logl) (hf : ¬ v.isFin) : ∃ z h lP, fEvidence logp logl = .ok (z, h, .nan, lP) := by
  obtain ⟨j, hj, rfl⟩ := List.getElem_of_mem hv
  have hne : logp ≠ [] := by rintro rfl; simp at hlen; omega
  unfold fEvidence
  rw [logsumexp_ok hne]
  simp only [Res.ok_bind]
  set s := Real.log (logp.map Real.exp).sum
  set lP := List.zipWith (fun a b => Fl.add (.fin a) b) (logp.map (· - s)) logl with hlP
  have hmem : Fl.add (.fin ((logp[j]'(by omega)) - s)) logl[j] ∈ lP := by
    rw [hlP]
    have : lP[j]'(by rw [hlP]; simp; omega) = Fl.add (.fin ((logp[j]'(by omega)) - s)) logl[j] := by
      simp [hlP]
    rw [← this]
    exact List.getElem_mem _
  have hadd : Fl.add (.fin ((logp[j]'(by omega)) - s)) logl[j] = logl[j] := by
    revert hf
    cases logl[j] with
    | fin => intro h; exact absurd trivial h
    | inf => intro _; rfl
    | nan => intro _; rfl
  rw [hadd] at hmem
  have hlPne : lP ≠ [] := by intro e; rw [e] at hmem; cases hmem
  obtain ⟨z, hz⟩ := fLogsumexp_ok hlPne
  rw [hz, Res.ok_bind]
  have key : ∀ x ∈ lP, (x = .inf false → z = .nan) → ¬ x.isFin →
      (lP.map (Fl.sub · z)).foldl (fun a x => Fl.add a (Fl.mul (Fl.neg x) (Fl.exp x))) (.fin 0) =
        .nan := by
    intro x hx h1 h2
    refine Fl.foldl_nan (fun x => Fl.mul (Fl.neg x) (Fl.exp x)) (List.mem_map_of_mem hx) ?_ _
    cases x with
    | fin => exact absurd trivial h2
    | nan => exact Fl.term_nan (.inl rfl) z
    | inf s =>
      cases s with
      | true => exact Fl.term_nan (.inr rfl) z
      | false => rw [h1 rfl, Fl.sub_nan]; rfl
  rw [key _ hmem (fun e => by
    rw [e] at hmem
    rw [fLogsumexp_inf hmem] at hz
    exact (Res.ok.inj hz).symm) hf]
  exact ⟨_, _, _, rfl⟩

/-! ## Finite likelihoods -/

theorem foldl_fmax_fin (l : List ℝ) (a : ℝ) :
    (l.map Fl.fin).foldl Fl.fmax (.fin a) = .fin (l.foldl max a) := by
  induction l generalizing a with
  | nil => rfl
  | cons x l ih =>
    have : Fl.fmax (.fin a) (.fin x) = .fin (max a x) := by
      by_cases h : a < x
      · simp [Fl.fmax, Fl.lt, h, max_eq_right h.le]
      · simp [Fl.fmax, Fl.lt, h, max_eq_left (not_lt.1 h)]
    rw [List.map_cons, List.foldl_cons, this, ih, List.foldl_cons]

theorem foldl_add_fin {α : Type} (g : α → Fl) (f : α → ℝ) (l : List α) (h : ∀ x ∈ l, g x = .fin (f x))
    (a : ℝ) : l.foldl (fun s y => Fl.add s (g y)) (.fin a) = .fin (l.foldl (fun s y => s + f y) a) := by
  induction l generalizing a with
  | nil => rfl
  | cons x l ih =>
    rw [List.foldl_cons, h x (by simp), List.foldl_cons]
    exact ih (fun y hy => h y (by simp [hy])) _

theorem fLogsumexp_fin (l : List ℝ) :
    fLogsumexp (l.map Fl.fin) = (logsumexp l).bind fun z => .ok (.fin z) := by
  cases l with
  | nil => rfl
  | cons x l =>
    have hm := foldl_fmax_fin (x :: l) x
    rw [List.map_cons] at hm
    simp only [fLogsumexp, List.map_cons, logsumexp, maxLoop]
    rw [hm]
    set m := (x :: l).foldl max x
    have hs := foldl_add_fin (fun y => Fl.exp (Fl.sub y (.fin m))) (fun y => match y with
      | .fin y => Real.exp (y - m) | _ => 0) ((x :: l).map Fl.fin) (by
        intro y hy
        obtain ⟨r, _, rfl⟩ := List.mem_map.1 hy
        simp [Fl.exp, Fl.sub, Fl.neg, Fl.add, sub_eq_add_neg]) 0
    rw [List.map_cons] at hs
    rw [hs]
    have e : (Fl.fin x :: l.map Fl.fin).foldl (fun s y => s + (match y with
        | .fin y => Real.exp (y - m) | _ => (0 : ℝ))) 0 =
        (x :: l).foldl (fun s y => s + Real.exp (y - m)) 0 := by
      rw [← List.map_cons, List.foldl_map]
    rw [e]
    have hpos : 0 < (x :: l).foldl (fun s y => s + Real.exp (y - m)) 0 := by
      rw [foldl_add_eq, zero_add, sum_map_exp_sub]
      exact mul_pos (sum_exp_pos (by simp)) (Real.exp_pos _)
    simp only [Fl.log, if_pos hpos, Fl.add]
    rfl

/-- A real evidence as doubles. -/
def evToF (e : ℝ × ℝ × ℝ × List ℝ) : Fl × Fl × Fl × List Fl :=
  (.fin e.1, .fin e.2.1, .fin e.2.2.1, e.2.2.2.map .fin)

theorem fEvidence_fin (logp logl : List ℝ) :
    fEvidence logp (logl.map Fl.fin) = (evidence logp logl).bind fun e => .ok (evToF e) := by
  unfold fEvidence evidence
  cases hs : logsumexp logp with
  | ok s =>
    simp only [Res.ok_bind]
    have hz : List.zipWith (fun a b => Fl.add (.fin a) b) (logp.map (· - s)) (logl.map Fl.fin) =
        (List.zipWith (· + ·) (logp.map (· - s)) logl).map Fl.fin := by
      rw [List.zipWith_map_right, List.map_zipWith]; rfl
    rw [hz, fLogsumexp_fin]
    set lP := List.zipWith (· + ·) (logp.map (· - s)) logl
    cases hzz : logsumexp lP with
    | ok z =>
      have h2 : (lP.map Fl.fin).map (Fl.sub · (.fin z)) = (lP.map (· - z)).map Fl.fin := by
        rw [List.map_map, List.map_map]
        exact List.map_congr_left fun a _ => by simp [Fl.sub, Fl.neg, Fl.add, sub_eq_add_neg]
      show Res.ok _ = Res.ok _
      rw [h2]
      have h3 := foldl_add_fin (fun x => Fl.mul (Fl.neg x) (Fl.exp x)) (fun y => match y with
        | .fin y => -y * Real.exp y | _ => 0) ((lP.map (· - z)).map Fl.fin) (by
          intro y hy
          obtain ⟨r, _, rfl⟩ := List.mem_map.1 hy
          rfl) 0
      have h4 := foldl_add_fin (fun e : Fl × Fl => Fl.mul (Fl.exp e.1) e.2) (fun y => match y with
        | (.fin x, .fin y) => Real.exp x * y | _ => 0)
          (((lP.map (· - z)).map Fl.fin).zip (logl.map Fl.fin)) (by
          intro y hy
          rw [List.zip_map] at hy
          obtain ⟨r, _, rfl⟩ := List.mem_map.1 hy
          rfl) (-z)
      rw [h3, show Fl.neg (.fin z) = .fin (-z) from rfl, h4, List.foldl_map, List.zip_map,
        List.foldl_map]
      rfl
    | exit => rfl
    | ub => rfl
    | hang => rfl
  | exit => rfl
  | ub => rfl
  | hang => rfl

end Mica
