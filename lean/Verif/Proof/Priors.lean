import Verif.Spec.Priors
import Verif.Proof.Text
import Mathlib.Data.List.TakeWhile

namespace Mica

variable {lf : List Char → Option (ℝ × List Char)}

theorem strchr_skip {w r : List Char} (hw : ':' ∉ w) : strchr (w ++ (':' :: r)) ':' = some (':' :: r) := by
  unfold strchr
  have : (w ++ (':' :: r)).dropWhile (fun x => !(x == ':')) = ':' :: r := by
    rw [List.dropWhile_append_of_pos]
    · simp
    · intro x hx
      have : x ≠ ':' := fun h => hw (h ▸ hx)
      simpa using this
  rw [this]

theorem strchr_none {w : List Char} (hw : ':' ∉ w) : strchr w ':' = none := by
  unfold strchr
  have : w.dropWhile (fun x => !(x == ':')) = [] := by
    rw [List.dropWhile_eq_nil_iff]
    intro x hx
    have : x ≠ ':' := fun h => hw (h ▸ hx)
    simpa using this
  rw [this]

/-- The text from a value on. -/
def priorTail (w : List Char) (ws : List (List Char)) : List Char :=
  w ++ ((ws.map fun x => ':' :: x).flatten ++ [']'])

theorem priorTail_cons (w x : List Char) (ws : List (List Char)) :
    priorTail w (x :: ws) = w ++ (':' :: priorTail x ws) := by simp [priorTail]

theorem lf_tail {w : List Char} {v : ℝ} (h : IsNum lf w v) (ws : List (List Char)) :
    lf (priorTail w ws) = some (v, (ws.map fun x => ':' :: x).flatten ++ [']']) := by
  unfold priorTail
  refine h.2 _ ?_
  cases ws with
  | nil => right; exact ⟨[], rfl⟩
  | cons x ws => left; exact ⟨_, by simp; rfl⟩

theorem priorLoop_ok {w : List Char} {ws : List (List Char)} {v : ℝ} {vt : List ℝ} (h : IsNum lf w v)
    (hs : List.Forall₂ (IsNum lf) ws vt) (k : ℕ) (hk : k ≤ vt.length) :
    priorLoop lf k (priorTail w ws) = .ok (((v :: vt).take (k + 1)).map some) := by
  induction k generalizing w ws v vt with
  | zero => simp [priorLoop, lfCell, lf_tail h]
  | succ k ih =>
    cases hs with
    | nil => simp at hk
    | @cons x y ws vt h1 h2 =>
      have hl := lf_tail h (x :: ws)
      rw [priorTail_cons] at hl ⊢
      rw [priorLoop, strchr_skip h.1]
      simp only [List.drop_succ_cons, List.drop_zero]
      rw [ih h1 h2 (by simpa using hk)]
      simp [lfCell, hl]

theorem priorLoop_few {w : List Char} {ws : List (List Char)} {v : ℝ} {vt : List ℝ} (h : IsNum lf w v)
    (hs : List.Forall₂ (IsNum lf) ws vt) (k : ℕ) (hk : vt.length < k) :
    priorLoop lf k (priorTail w ws) = .exit := by
  induction k generalizing w ws v vt with
  | zero => omega
  | succ k ih =>
    cases hs with
    | nil =>
      rw [priorLoop]
      have : ':' ∉ priorTail w [] := by simp [priorTail, h.1]
      rw [strchr_none this]
    | @cons x y ws vt h1 h2 =>
      rw [priorTail_cons, priorLoop, strchr_skip h.1]
      simp only [List.drop_succ_cons, List.drop_zero]
      rw [ih h1 h2 (by simpa using hk)]

theorem allSet_some (l : List ℝ) : allSet (l.map some) = .ok l := by
  induction l with
  | nil => rfl
  | cons a l ih => simp [allSet, ih, Res.bind]

theorem widthLogs_ok (l : List ℝ) (h : ∀ v ∈ l, 0 < v) : widthLogs (l.map some) = .ok (l.map Real.log) := by
  induction l with
  | nil => rfl
  | cons a l ih =>
    have ha := h a (by simp)
    simp [widthLogs, not_le.2 ha, ih fun v hv => h v (by simp [hv]), Res.bind]

theorem widthLogs_exit (l : List ℝ) (h : ∃ v ∈ l, v ≤ 0) : widthLogs (l.map some) = .exit := by
  induction l with
  | nil => simp at h
  | cons a l ih =>
    by_cases ha : a ≤ 0
    · simp [widthLogs, ha]
    · obtain ⟨v, hv, hv0⟩ := h
      rcases List.mem_cons.1 hv with rfl | hv
      · exact absurd hv0 ha
      · simp [widthLogs, ha, ih ⟨v, hv, hv0⟩, Res.bind]

/-! ## Ratios -/

theorem countColons_tail {w : List Char} {ws : List (List Char)} {v : ℝ} {vt : List ℝ} (h : IsNum lf w v)
    (hs : List.Forall₂ (IsNum lf) ws vt) : countColons (priorTail w ws) = vt.length := by
  have h0 : ∀ x : List Char, ':' ∉ x → (x.filter (· == ':')) = [] := by
    intro x hx
    rw [List.filter_eq_nil_iff]
    intro c hc
    have : c ≠ ':' := fun he => hx (he ▸ hc)
    simpa using this
  induction hs generalizing w v with
  | nil => simp [countColons, priorTail, h0 w h.1]
  | @cons x y ws vt h1 h2 ih =>
    have := ih h1
    unfold countColons at this ⊢
    rw [priorTail_cons, List.filter_append, h0 w h.1]
    simp [this]

/-- More values asked for than there are: the null pointer is used. -/
theorem ratioLoop_ub {w : List Char} {ws : List (List Char)} {v : ℝ} {vt : List ℝ} (h : IsNum lf w v)
    (hs : List.Forall₂ (IsNum lf) ws vt) (k cap : ℕ) (hk : vt.length + 1 < k) :
    ratioLoop lf k cap (some (priorTail w ws)) = .ub := by
  induction hs generalizing w v k cap with
  | nil =>
    match k, cap with
    | 0, _ => omega
    | _ + 1, 0 => rfl
    | 1, _ + 1 => simp at hk
    | k + 2, cap + 1 =>
      rw [ratioLoop, lf_tail h]
      have : ':' ∉ priorTail w [] := by simp [priorTail, h.1]
      simp only [strchr_none this, Option.map_none]
      cases cap <;> rfl
  | @cons x y ws vt h1 h2 ih =>
    match k, cap with
    | 0, _ => omega
    | _ + 1, 0 => rfl
    | k + 1, cap + 1 =>
      rw [ratioLoop, lf_tail h]
      simp only [priorTail_cons, strchr_skip h.1, Option.map_some, List.drop_succ_cons, List.drop_zero]
      rw [ih h1 k cap (by simpa using hk)]
      rfl

theorem ratioLoop_two {w x : List Char} {v y : ℝ} (h : IsNum lf w v) (h1 : IsNum lf x y) (cap : ℕ)
    (hc : 2 ≤ cap) : ratioLoop lf 2 cap (some (priorTail w [x])) = .ok [Real.log v, Real.log y] := by
  obtain ⟨cap, rfl⟩ : ∃ c, cap = c + 2 := ⟨cap - 2, by omega⟩
  rw [ratioLoop, lf_tail h]
  simp only [priorTail_cons, strchr_skip h.1, Option.map_some, List.drop_succ_cons, List.drop_zero]
  rw [ratioLoop, lf_tail h1]
  simp [ratioLoop, Res.bind]

/-! ## Gaps -/

theorem lfPair_tail {w x : List Char} {ws : List (List Char)} {v y : ℝ} (h : IsNum lf w v) (h1 : IsNum lf x y) :
    lfPair lf (priorTail w (x :: ws)) = some (v, y) := by
  unfold lfPair
  rw [lf_tail h]
  have e : ((x :: ws).map fun x => ':' :: x).flatten ++ [']'] = ':' :: priorTail x ws := by simp [priorTail]
  rw [e]
  simp [lf_tail h1]

theorem gapLoop_ok {w : List Char} {ws : List (List Char)} {v : ℝ} {vt : List ℝ} (h : IsNum lf w v)
    (hs : List.Forall₂ (IsNum lf) ws vt) (k : ℕ) (hk : k < vt.length) :
    gapLoop lf k (priorTail w ws)
      = .ok ((List.range (k + 1)).map fun i => ((v :: vt).getD i 0, (v :: vt).getD (i + 1) 0 / 2)) := by
  induction k generalizing w ws v vt with
  | zero =>
    cases hs with
    | nil => simp at hk
    | @cons x y ws vt h1 h2 => simp [gapLoop, lfPair_tail h h1]
  | succ k ih =>
    cases hs with
    | nil => simp at hk
    | @cons x y ws vt h1 h2 =>
      rw [gapLoop, lfPair_tail h h1]
      simp only [priorTail_cons, strchr_skip h.1, List.drop_succ_cons, List.drop_zero]
      rw [ih h1 h2 (by simpa using hk), List.range_succ_eq_map (n := k + 1)]
      simp

/-! ## The file of parameter ranges -/

variable {parse : List Char → Option ParLine}

theorem nextWord_nonblank {a r : List Char} {c : Char} (ha : ∀ x ∈ a, isSpaceC x = true)
    (hc : isSpaceC c = false) : ∃ w, (nextWord (a ++ (c :: r))).1 = c :: w := by
  have : skipSpace (a ++ (c :: r)) = c :: r := by
    rw [skipSpace_append ha]
    simp [skipSpace, hc]
  unfold nextWord
  rw [this]
  exact ⟨r.takeWhile fun c => !isSpaceC c, by simp [hc]⟩

theorem nextWord_blank {l : List Char} (h : ∀ x ∈ l, isSpaceC x = true) : (nextWord l).1 = [] := by
  have : skipSpace l = [] := by
    unfold skipSpace
    rw [List.dropWhile_eq_nil_iff]
    exact h
  unfold nextWord
  rw [this]
  rfl

theorem loadLoop_entry {l : List Char} {e : ParLine} (h : IsParLine parse l e) (np : ℕ) (ls : List (List Char))
    (seen : Bool) (t : ParTab) :
    loadLoop parse np ((l ++ ['\n']) :: ls) seen t = (storeLine np t e).bind (loadLoop parse np ls true) := by
  obtain ⟨h1, h2, ⟨a, c, r, h3, h4, h5, h6⟩, h7⟩ := h
  rw [loadLoop, if_neg (by simp)]
  obtain ⟨w, hw⟩ := nextWord_nonblank (r := r ++ ['\n']) h4 h5
  have : l ++ ['\n'] = a ++ (c :: (r ++ ['\n'])) := by rw [h3]; simp
  rw [this, hw]
  simp only [h6, if_false]
  rw [← this, h7]

theorem loadLoop_entries {ls : List (List Char)} {es : List ParLine} (h : List.Forall₂ (IsParLine parse) ls es)
    (np : ℕ) (rest : List (List Char)) (seen : Bool) (t : ParTab)
    (hidx : ∀ e ∈ es, 0 ≤ e.idx ∧ e.idx < np) :
    loadLoop parse np (ls.map (· ++ ['\n']) ++ rest) seen t
      = loadLoop parse np rest (seen || !ls.isEmpty)
          (es.foldl (fun t e => ⟨t.range.set e.idx.toNat (e.lo, e.hi), t.fix.set e.idx.toNat e.fix,
            t.val.set e.idx.toNat e.val⟩) t) := by
  induction h generalizing seen t with
  | nil => simp
  | @cons l e ls es h1 h2 ih =>
    have he := hidx e (by simp)
    rw [List.map_cons, List.cons_append, loadLoop_entry h1]
    have : storeLine np t e = .ok ⟨t.range.set e.idx.toNat (e.lo, e.hi), t.fix.set e.idx.toNat e.fix,
            t.val.set e.idx.toNat e.val⟩ := by
      unfold storeLine
      rw [if_neg (by omega), if_neg (by omega)]
    rw [this]
    show loadLoop parse np _ true _ = _
    rw [ih true _ fun x hx => hidx x (by simp [hx])]
    simp

theorem loadPieces (ls : List (List Char)) (last : List Char) (hnl : ∀ l ∈ ls, '\n' ∉ l)
    (hl : ∀ l ∈ ls, l.length < 254) (hlast : '\n' ∉ last) (hll : last.length < 254) :
    fgetsAll 254 (textOf ls last) = ls.map (· ++ ['\n']) ++ (if last = [] then [] else [last]) := by
  induction ls with
  | nil =>
    simp only [textOf, List.map_nil, List.flatten_nil, List.nil_append]
    by_cases h : last = []
    · subst h; simp [fgetsAll]
    · rw [fgetsAll_cons h, fgetsC_last hlast (by omega)]
      simp [h, fgetsAll]
  | cons l ls ih =>
    have e : textOf (l :: ls) last = l ++ ('\n' :: textOf ls last) := by simp [textOf]
    rw [e, fgetsAll_cons (by simp), fgetsC_line (hnl l (by simp)) (by have := hl l (by simp); omega),
      ih (fun x hx => hnl x (by simp [hx])) (fun x hx => hl x (by simp [hx]))]
    rfl

theorem parLines_props {ls : List (List Char)} {es : List ParLine} (h : List.Forall₂ (IsParLine parse) ls es) :
    (∀ l ∈ ls, '\n' ∉ l) ∧ ∀ l ∈ ls, l.length < 254 := by
  induction h with
  | nil => simp
  | cons h1 _ ih =>
    simp only [List.forall_mem_cons]
    exact ⟨⟨h1.1, ih.1⟩, h1.2.1, ih.2⟩

end Mica
