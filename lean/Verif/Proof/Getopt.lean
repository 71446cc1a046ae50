import Verif.Spec.CmdLine
import Mathlib.Data.List.Basic

/-! # Lemmas about the reading of the command line -/

namespace Mica

theorem isOpt_iff (a : CStr) : isOpt a = true ↔ a.head? = some '-' ∧ 2 ≤ a.length := by
  unfold isOpt
  split
  · simp
  · rename_i h
    constructor
    · intro h'; simp at h'
    · rintro ⟨h1, h2⟩
      exfalso
      match a, h1, h2 with
      | [x], _, h2 => simp at h2
      | x :: y :: l, h1, _ =>
        simp at h1; subst h1
        exact h y l rfl

theorem isOpt_false (a : CStr) (h : ¬ (a.head? = some '-' ∧ 2 ≤ a.length)) : isOpt a = false := by
  rw [← isOpt_iff] at h; simpa using h

/-! ## The exchange -/

theorem get_mid {α : Type u} (A R : List α) (x : α) : Res.get (A ++ x :: R) A.length = .ok x := by
  simp [Res.get]

theorem put_mid {α : Type u} (A R : List α) (x y : α) :
    Res.put (A ++ x :: R) A.length y = .ok (A ++ y :: R) := by
  simp [Res.put]

theorem shiftGo_eq {α : Type u} (Q : List α) : ∀ (A R : List α) (x : α),
    shiftGo Q.length A.length (A ++ x :: (Q ++ R)) = .ok (A ++ Q ++ (Q.getLast?.getD x) :: R) := by
  induction Q with
  | nil => intro A R x; simp [shiftGo]
  | cons q Q ih =>
    intro A R x
    simp only [List.length_cons, shiftGo, List.cons_append]
    have h1 := get_mid (A ++ [x]) (Q ++ R) q
    simp only [List.append_assoc, List.cons_append, List.nil_append, List.length_append, List.length_cons,
      List.length_nil] at h1
    rw [h1]
    simp only [Res.ok_bind]
    rw [put_mid]
    simp only [Res.ok_bind]
    have h2 := ih (A ++ [q]) R q
    simp only [List.append_assoc, List.cons_append, List.nil_append, List.length_append, List.length_cons,
      List.length_nil] at h2
    rw [h2]
    simp only [List.append_assoc, List.cons_append]
    cases Q <;> simp [List.getLast?_cons]

theorem moveOne_eq {α : Type u} (A Q R : List α) (x : α) :
    moveOne (A ++ x :: (Q ++ R)) A.length (A.length + Q.length) = .ok (A ++ Q ++ x :: R) := by
  unfold moveOne
  rw [get_mid]
  simp only [Res.ok_bind, Nat.add_sub_cancel_left]
  rw [shiftGo_eq]
  simp only [Res.ok_bind]
  have := put_mid (A ++ Q) R (Q.getLast?.getD x) x
  simp only [List.length_append] at this
  rw [Nat.max_eq_right (Nat.le_add_right _ _), this]

theorem permGo_eq {α : Type u} (P Q : List α) (n : ℕ) : ∀ (pos R : List α), pos.length = n →
    permGo n (P.length + pos.length) (P.length + pos.length + Q.length - 1) (P ++ pos ++ Q ++ R) =
      .ok (P ++ Q ++ pos ++ R) := by
  induction n with
  | zero => intro pos R h; simp at h; subst h; simp [permGo]
  | succ n ih =>
    intro pos R h
    obtain ⟨pos', x, rfl⟩ : ∃ p x, pos = p ++ [x] :=
      ⟨pos.dropLast, pos.getLast (by intro h0; simp [h0] at h), (List.dropLast_append_getLast _).symm⟩
    simp at h
    simp only [permGo, List.length_append, List.length_cons, List.length_nil]
    have h1 := moveOne_eq (P ++ pos') Q R x
    simp only [List.length_append] at h1
    have e1 : P.length + (pos'.length + (0 + 1)) - 1 = P.length + pos'.length := by omega
    have e2 : P.length + (pos'.length + (0 + 1)) + Q.length - 1 = P.length + pos'.length + Q.length := by omega
    rw [e1, e2]
    simp only [List.append_assoc, List.cons_append, List.nil_append] at h1 ⊢
    rw [h1]
    simp only [Res.ok_bind]
    have h2 := ih pos' (x :: R) h
    simp only [List.append_assoc] at h2
    rw [h2]

/-! ## States between two options -/

/-- The state before a call, up to the exchange still to be done: `P` are the arguments finished (the program name
among them), `pos` the names found so far, `rest` what is still to be read. -/
def Ready (P pos rest : List CStr) (s : GState) : Prop :=
  1 ≤ P.length ∧ (∀ a ∈ pos, isOpt a = false) ∧
    ∃ k, permute s = .ok ⟨P ++ pos ++ rest, P.length, none, 0, k⟩

/-- The state inside or right behind the option that starts at `off` = number of arguments before it. -/
def atOpt (P pos : List CStr) (k : ℕ) (tail : List CStr) (optind : ℕ) (nx : Option CStr) : GState :=
  if pos = [] then ⟨P ++ pos ++ tail, optind, nx, 0, k⟩
  else ⟨P ++ pos ++ tail, optind, nx, P.length, P.length + pos.length⟩

theorem ready_after (P pos Q rest : List CStr) (k : ℕ) (hP : 1 ≤ P.length) (hp : ∀ a ∈ pos, isOpt a = false)
    (hQ : Q ≠ []) :
    Ready (P ++ Q) pos rest (atOpt P pos k (Q ++ rest) (P.length + pos.length + Q.length) none) := by
  refine ⟨by simp; omega, hp, ?_⟩
  have hQl : 0 < Q.length := List.length_pos_iff.2 hQ
  unfold atOpt permute
  by_cases h : pos = []
  · subst h
    exact ⟨k, by simp⟩
  · refine ⟨P.length - 1, ?_⟩
    have hl : 0 < pos.length := List.length_pos_iff.2 h
    have hP0 : P.length ≠ 0 := by omega
    simp only [h, if_false]
    rw [if_pos ⟨trivial, hP0⟩]
    have e : P.length + pos.length - P.length = pos.length := by omega
    simp only [e]
    have := permGo_eq P Q pos.length pos rest rfl
    simp only [List.append_assoc] at this ⊢
    rw [this]
    simp only [Res.ok_bind, List.length_append]
    congr 2
    omega

theorem ready_name {P pos rest : List CStr} {a : CStr} {s : GState} (ha : isOpt a = false)
    (h : Ready P pos (a :: rest) s) : Ready P (pos ++ [a]) rest s := by
  obtain ⟨h1, h2, k, h3⟩ := h
  refine ⟨h1, ?_, k, ?_⟩
  · intro b hb
    simp only [List.mem_append, List.mem_singleton] at hb
    rcases hb with hb | rfl
    · exact h2 b hb
    · exact ha
  · simpa using h3

theorem findOpt_skip (pos l : List CStr) (w : CStr) (hp : ∀ a ∈ pos, isOpt a = false) (hw : isOpt w = true) (i : ℕ) :
    findOpt (pos ++ w :: l) i = some (i + pos.length) := by
  induction pos generalizing i with
  | nil => simp [findOpt, hw]
  | cons a pos ih =>
    simp only [List.cons_append, findOpt]
    rw [if_neg (by simp [hp a (by simp)]), ih (fun b hb => hp b (by simp [hb]))]
    simp; omega

theorem findOpt_none (pos : List CStr) (hp : ∀ a ∈ pos, isOpt a = false) (i : ℕ) : findOpt pos i = none := by
  induction pos generalizing i with
  | nil => rfl
  | cons a pos ih =>
    simp only [findOpt]
    rw [if_neg (by simp [hp a (by simp)]), ih (fun b hb => hp b (by simp [hb]))]

/-- A call that meets an option. -/
theorem getopt_word (os : List Char) {P pos l : List CStr} {w : CStr} {s : GState} (hw : isOpt w = true)
    (h : Ready P pos (w :: l) s) :
    ∃ k, getopt os s = startArg os (atOpt P pos k (w :: l) (P.length + pos.length) none) w := by
  obtain ⟨h1, h2, k, h3⟩ := h
  refine ⟨k, ?_⟩
  unfold getopt
  rw [h3]
  simp only [Res.ok_bind]
  rw [if_neg (by simp; omega)]
  unfold atOpt
  cases pos with
  | nil =>
    have := get_mid P l w
    simp only [List.append_nil, this, Res.ok_bind, hw, if_true, List.length_nil, Nat.add_zero]
  | cons a pos =>
    have g1 := get_mid P (pos ++ w :: l) a
    have ha : isOpt a = false := h2 a (by simp)
    simp only [List.append_assoc, List.cons_append, g1, Res.ok_bind, ha, reduceCtorEq, if_false]
    have hd : List.drop (P.length + 1) (P ++ a :: (pos ++ w :: l)) = pos ++ w :: l := by
      rw [show P.length + 1 = P.length + 1 from rfl, List.drop_append]
      simp
    rw [hd, findOpt_skip pos l w (fun b hb => h2 b (by simp [hb])) hw]
    have g2 := get_mid (P ++ a :: pos) l w
    simp only [List.append_assoc, List.cons_append, List.length_append, List.length_cons] at g2
    have e : P.length + 1 + pos.length = P.length + (pos.length + 1) := by omega
    simp only [e, g2, Res.ok_bind, List.length_cons]

/-- A call when only names are left. -/
theorem getopt_done (os : List Char) {P pos : List CStr} {s : GState} (h : Ready P pos [] s) :
    ∃ s', getopt os s = .ok (.done, s') ∧ s'.argv = P ++ pos ∧ s'.optind = P.length := by
  obtain ⟨h1, h2, k, h3⟩ := h
  unfold getopt
  rw [h3]
  simp only [Res.ok_bind, List.append_nil]
  cases pos with
  | nil => simp
  | cons a pos =>
    rw [if_neg (by simp)]
    have g1 := get_mid P pos a
    have ha : isOpt a = false := h2 a (by simp)
    have hd : List.drop (P.length + 1) (P ++ a :: pos) = pos := by
      rw [List.drop_append]; simp
    simp only [g1, Res.ok_bind, ha, reduceCtorEq, if_false, hd,
      findOpt_none pos (fun b hb => h2 b (by simp [hb]))]
    exact ⟨_, rfl, by simp, rfl⟩

/-- A call that meets `--`: the names found before are not looked at any more. -/
theorem getopt_dashes (os : List Char) {P pos l : List CStr} {s : GState} (h : Ready P pos (['-', '-'] :: l) s) :
    ∃ s', getopt os s = .ok (.done, s') ∧ s'.argv = P ++ pos ++ ['-', '-'] :: l ∧
      s'.optind = P.length + pos.length + 1 := by
  obtain ⟨k, hk⟩ := getopt_word os (by decide) h
  rw [hk]
  unfold startArg atOpt
  by_cases hp : pos = [] <;> simp [hp]

/-! ## The letters of a group -/

/-- Letters without a value. -/
def IsFlag (os : List Char) (c : Char) : Prop := ∃ t, afterOpt os c = some t ∧ t.head? ≠ some ':'

/-- Letters with a value. -/
def IsVal (os : List Char) (c : Char) : Prop := ∃ t, afterOpt os c = some (':' :: t) ∧ t.head? ≠ some ':'

theorem shortOpts_flag {os : List Char} {c : Char} (h : IsFlag os c) (s : GState) (cs : CStr) :
    shortOpts os s (c :: cs) = if cs = [] then .ok (.opt c none, { s with optind := s.optind + 1, optnext := none })
      else .ok (.opt c none, { s with optnext := some cs }) := by
  obtain ⟨t, h1, h2⟩ := h
  simp only [shortOpts, h1]
  match t, h2 with
  | [], _ => rfl
  | d :: t, h2 =>
    have hd : d ≠ ':' := by simpa using h2
    split
    · rename_i heq; simp at heq
    · rename_i heq; simp at heq; exact absurd heq.1 hd
    · rfl

theorem shortOpts_val {os : List Char} {c : Char} (h : IsVal os c) (s : GState) (cs : CStr) (hcs : cs ≠ []) :
    shortOpts os s (c :: cs) = .ok (.opt c (some cs), { s with optind := s.optind + 1, optnext := none }) := by
  obtain ⟨t, h1, h2⟩ := h
  simp only [shortOpts, h1]
  simp [hcs]

theorem shortOpts_val' {os : List Char} {c : Char} (h : IsVal os c) (s : GState) (x : CStr)
    (hx : Res.get s.argv (s.optind + 1) = .ok x) :
    shortOpts os s [c] = .ok (.opt c (some x), { s with optind := s.optind + 2, optnext := none }) := by
  obtain ⟨t, h1, h2⟩ := h
  simp only [shortOpts, h1]
  have hne : s.optind + 1 ≠ s.argv.length := by
    rw [Res.get_eq_ok] at hx
    intro h
    rw [h] at hx
    simp at hx
  simp [h2, hne, hx]

/-- A call inside a group. -/
theorem getopt_inside (os : List Char) (P pos : List CStr) (k : ℕ) (w : CStr) (l : List CStr) (cs : CStr) :
    getopt os (atOpt P pos k (w :: l) (P.length + pos.length) (some cs)) =
      shortOpts os (atOpt P pos k (w :: l) (P.length + pos.length) (some cs)) cs := by
  unfold getopt permute atOpt
  by_cases h : pos = []
  · subst h
    simp only [reduceCtorEq, false_and, if_false, Res.ok_bind, if_true]
    rw [if_neg (by simp)]
  · simp only [h, reduceCtorEq, false_and, if_false, Res.ok_bind]
    rw [if_neg (by simp)]

variable {σ : Type} {os : List Char} {step : σ → Char × Option CStr → Res σ}

/-- The options in turn. -/
def foldSteps (step : σ → Char × Option CStr → Res σ) : List (Char × Option CStr) → σ → Res σ
  | [], c => .ok c
  | e :: es, c => step c e >>= foldSteps step es

theorem foldSteps_append (a b : List (Char × Option CStr)) (c : σ) :
    foldSteps step (a ++ b) c = foldSteps step a c >>= foldSteps step b := by
  induction a generalizing c with
  | nil => rfl
  | cons e a ih =>
    simp only [List.cons_append, foldSteps]
    cases step c e <;> simp [ih]

theorem res_bind_assoc {α β γ : Type u} (x : Res α) (f : α → Res β) (g : β → Res γ) :
    ((x >>= f) >>= g) = (x >>= fun a => f a >>= g) := by
  cases x <;> rfl

/-- Going on with the letters `fs ++ rest`, flags first, `rest` not empty. -/
theorem loop_inside (P pos : List CStr) (k : ℕ) (w : CStr) (l : List CStr) (fs : List Char)
    (hf : ∀ x ∈ fs, IsFlag os x) (rest : CStr) (hr : rest ≠ []) (n : ℕ) (c : σ) :
    getoptLoop os step (fs.length + n) (atOpt P pos k (w :: l) (P.length + pos.length) (some (fs ++ rest))) c =
      foldSteps step (fs.map (·, none)) c >>=
        getoptLoop os step n (atOpt P pos k (w :: l) (P.length + pos.length) (some rest)) := by
  induction fs generalizing c with
  | nil => simp [foldSteps]
  | cons x fs ih =>
    have e : (x :: fs).length + n = (fs.length + n) + 1 := by simp; omega
    rw [e]
    simp only [getoptLoop, getopt_inside, List.cons_append]
    rw [shortOpts_flag (hf x (by simp))]
    rw [if_neg (by simp [hr])]
    simp only [Res.ok_bind, List.map_cons, foldSteps, res_bind_assoc]
    have e2 : ({ atOpt P pos k (w :: l) (P.length + pos.length) (some (x :: (fs ++ rest))) with
        optnext := some (fs ++ rest) } : GState) =
        atOpt P pos k (w :: l) (P.length + pos.length) (some (fs ++ rest)) := by
      unfold atOpt; by_cases h : pos = [] <;> simp [h]
    rw [e2]
    congr 1
    funext c'
    exact ih (fun y hy => hf y (by simp [hy])) c'

/-- The first call on a group is the same as a call inside it. -/
theorem getopt_first {P pos l : List CStr} {c0 : Char} {cs : CStr} {s : GState}
    (h : Ready P pos (('-' :: c0 :: cs) :: l) s) (hc : c0 ≠ '-' ∨ cs ≠ []) :
    ∃ k, getopt os s = shortOpts os (atOpt P pos k (('-' :: c0 :: cs) :: l) (P.length + pos.length) (some (c0 :: cs)))
      (c0 :: cs) := by
  obtain ⟨k, hk⟩ := getopt_word os (w := '-' :: c0 :: cs) (by simp [isOpt]) h
  refine ⟨k, ?_⟩
  rw [hk]
  unfold startArg
  rw [if_neg (by rcases hc with h | h <;> simp [h])]
  have : ({ atOpt P pos k (('-' :: c0 :: cs) :: l) (P.length + pos.length) none with
      optnext := some (('-' :: c0 :: cs).drop 1) } : GState) =
      atOpt P pos k (('-' :: c0 :: cs) :: l) (P.length + pos.length) (some (c0 :: cs)) := by
    unfold atOpt; by_cases h : pos = [] <;> simp [h]
  rw [this]
  rfl

theorem afterOpt_mem {os : List Char} {c : Char} {t : List Char} (h : afterOpt os c = some t) : c ∈ os := by
  induction os with
  | nil => simp [afterOpt] at h
  | cons d os ih =>
    simp only [afterOpt] at h
    split at h
    · rename_i h'; simp [h']
    · simp [ih h]

theorem IsFlag.ne_dash {c : Char} (hd : '-' ∉ os) (h : IsFlag os c) : c ≠ '-' := by
  obtain ⟨t, h1, _⟩ := h
  rintro rfl
  exact hd (afterOpt_mem h1)

theorem IsVal.ne_dash {c : Char} (hd : '-' ∉ os) (h : IsVal os c) : c ≠ '-' := by
  obtain ⟨t, h1, _⟩ := h
  rintro rfl
  exact hd (afterOpt_mem h1)

theorem atOpt_set (P pos : List CStr) (k : ℕ) (t : List CStr) (a b : ℕ) (x y : Option CStr) :
    ({ atOpt P pos k t a x with optind := b, optnext := y } : GState) = atOpt P pos k t b y := by
  unfold atOpt; by_cases h : pos = [] <;> simp [h]

theorem atOpt_optind (P pos : List CStr) (k : ℕ) (t : List CStr) (a : ℕ) (x : Option CStr) :
    (atOpt P pos k t a x).optind = a := by
  unfold atOpt; by_cases h : pos = [] <;> simp [h]

theorem atOpt_argv (P pos : List CStr) (k : ℕ) (t : List CStr) (a : ℕ) (x : Option CStr) :
    (atOpt P pos k t a x).argv = P ++ pos ++ t := by
  unfold atOpt; by_cases h : pos = [] <;> simp [h]

/-- The loop on a group up to the letters `rest`. -/
theorem loop_word {P pos l : List CStr} {c0 : Char} {cs : CStr} {s : GState}
    (h : Ready P pos (('-' :: c0 :: cs) :: l) s) (hc : c0 ≠ '-' ∨ cs ≠ []) (gs : List Char)
    (hf : ∀ x ∈ gs, IsFlag os x) (rest : CStr) (hr : rest ≠ []) (hg : c0 :: cs = gs ++ rest) :
    ∃ k, ∀ (n : ℕ) (c : σ), getoptLoop os step (gs.length + (n + 1)) s c =
      foldSteps step (gs.map (·, none)) c >>= getoptLoop os step (n + 1)
        (atOpt P pos k (('-' :: c0 :: cs) :: l) (P.length + pos.length) (some rest)) := by
  obtain ⟨k, hk⟩ := getopt_first (os := os) h hc
  refine ⟨k, fun n c => ?_⟩
  rw [← loop_inside P pos k ('-' :: c0 :: cs) l gs hf rest hr (n + 1) c, ← hg, ← Nat.add_assoc]
  simp only [getoptLoop, getopt_inside, hk]

/-- **The loop on a correct part of a command line**: one call per option, the names collected. -/
theorem loop_cmdline (hd : '-' ∉ os) {flag val : Char → Prop} (hF : ∀ c, flag c → IsFlag os c)
    (hV : ∀ c, val c → IsVal os c) {args : List CStr} {es : List (Char × Option CStr)} {ps : List CStr}
    (h : CmdLine flag val args es ps) : ∀ (P pos tail : List CStr) (s : GState), Ready P pos (args ++ tail) s →
    ∃ P' s', Ready P' (pos ++ ps) tail s' ∧ ∀ (n : ℕ) (c : σ), getoptLoop os step (es.length + (n + 1)) s c =
      foldSteps step es c >>= getoptLoop os step (n + 1) s' := by
  induction h with
  | nil =>
    intro P pos tail s hr
    exact ⟨P, s, by simpa using hr, by intro n c; simp [foldSteps]⟩
  | name a ha _ ih =>
    intro P pos tail s hr
    obtain ⟨P', s', h1, h2⟩ := ih P (pos ++ [a]) tail s (ready_name (isOpt_false a ha) hr)
    exact ⟨P', s', by simpa using h1, h2⟩
  | @flags c0 fs hf l es ps _ ih =>
    intro P pos tail s hr
    obtain ⟨gs, g, hg⟩ : ∃ gs g, c0 :: fs = gs ++ [g] :=
      ⟨(c0 :: fs).dropLast, (c0 :: fs).getLast (by simp), (List.dropLast_append_getLast _).symm⟩
    have hgf : IsFlag os g := hF g (hf g (by rw [hg]; simp))
    have hgsf : ∀ x ∈ gs, IsFlag os x := fun x hx => hF x (hf x (by rw [hg]; simp [hx]))
    obtain ⟨k, hk⟩ := loop_word (step := step) hr (Or.inl (IsFlag.ne_dash hd (hF c0 (hf c0 (by simp))))) gs hgsf [g]
      (by simp) hg
    obtain ⟨P', s', h1, h2⟩ := ih _ pos tail _ (ready_after P pos ['-' :: c0 :: fs] (l ++ tail) k hr.1 hr.2.1 (by simp))
    refine ⟨P', s', h1, fun n c => ?_⟩
    have e : ((c0 :: fs).map (·, (none : Option CStr)) ++ es).length + (n + 1) = gs.length + ((es.length + n) + 1 + 1) := by
      have := congrArg List.length hg
      simp at this ⊢; omega
    rw [e, hk, show (c0 :: fs).map (·, (none : Option CStr)) = gs.map (·, none) ++ [(g, none)] by rw [hg]; simp, List.append_assoc, foldSteps_append, res_bind_assoc]
    congr 1
    funext c'
    rw [getoptLoop.eq_def]
    simp only [getopt_inside]
    rw [shortOpts_flag hgf]
    simp only [if_true, Res.ok_bind, atOpt_set, atOpt_optind, List.cons_append,
      List.nil_append, foldSteps, res_bind_assoc]
    congr 1
    funext c''
    have := h2 n c''
    simp only [List.length_cons, List.length_nil, List.cons_append, List.nil_append] at this
    exact this
  | @joined fs hf c0 hc v hv l es ps _ ih =>
    intro P pos tail s hr
    obtain ⟨d, ds, hds⟩ : ∃ d ds, fs ++ c0 :: v = d :: ds := by
      cases fs <;> simp
    have hdd : d ≠ '-' := by
      cases fs with
      | nil => simp at hds; rw [← hds.1]; exact IsVal.ne_dash hd (hV c0 hc)
      | cons x fs => simp at hds; rw [← hds.1]; exact IsFlag.ne_dash hd (hF x (hf x (by simp)))
    rw [hds] at hr
    obtain ⟨k, hk⟩ := loop_word (step := step) hr (Or.inl hdd) fs (fun x hx => hF x (hf x hx)) (c0 :: v) (by simp) hds.symm
    obtain ⟨P', s', h1, h2⟩ := ih _ pos tail _ (ready_after P pos ['-' :: d :: ds] (l ++ tail) k hr.1 hr.2.1 (by simp))
    refine ⟨P', s', h1, fun n c => ?_⟩
    have e : (fs.map (·, (none : Option CStr)) ++ (c0, some v) :: es).length + (n + 1) =
        fs.length + ((es.length + n) + 1 + 1) := by
      simp; omega
    rw [e, hk, foldSteps_append, res_bind_assoc]
    congr 1
    funext c'
    rw [getoptLoop.eq_def]
    simp only [getopt_inside]
    rw [shortOpts_val (hV c0 hc) _ _ hv]
    simp only [Res.ok_bind, atOpt_set, atOpt_optind, foldSteps, res_bind_assoc]
    congr 1
    funext c''
    have := h2 n c''
    simp only [List.length_cons, List.length_nil, List.cons_append, List.nil_append] at this
    exact this
  | @apart fs hf c0 hc v l es ps _ ih =>
    intro P pos tail s hr
    obtain ⟨d, ds, hds⟩ : ∃ d ds, fs ++ [c0] = d :: ds := by
      cases fs <;> simp
    have hdd : d ≠ '-' := by
      cases fs with
      | nil => simp at hds; rw [← hds.1]; exact IsVal.ne_dash hd (hV c0 hc)
      | cons x fs => simp at hds; rw [← hds.1]; exact IsFlag.ne_dash hd (hF x (hf x (by simp)))
    rw [hds] at hr
    obtain ⟨k, hk⟩ := loop_word (step := step) hr (Or.inl hdd) fs (fun x hx => hF x (hf x hx)) [c0] (by simp) hds.symm
    obtain ⟨P', s', h1, h2⟩ := ih _ pos tail _ (ready_after P pos ['-' :: d :: ds, v] (l ++ tail) k hr.1 hr.2.1 (by simp))
    refine ⟨P', s', h1, fun n c => ?_⟩
    have e : (fs.map (·, (none : Option CStr)) ++ (c0, some v) :: es).length + (n + 1) =
        fs.length + ((es.length + n) + 1 + 1) := by
      simp; omega
    rw [e, hk, foldSteps_append, res_bind_assoc]
    congr 1
    funext c'
    rw [getoptLoop.eq_def]
    simp only [getopt_inside]
    rw [shortOpts_val' (hV c0 hc) _ v (by
      rw [atOpt_argv, atOpt_optind]
      have := get_mid (P ++ pos ++ ['-' :: d :: ds]) (l ++ tail) v
      simpa [Nat.add_assoc] using this)]
    simp only [Res.ok_bind, atOpt_set, atOpt_optind, foldSteps, res_bind_assoc]
    congr 1
    funext c''
    have := h2 n c''
    simp only [List.length_cons, List.length_nil, List.cons_append, List.nil_append] at this
    exact this

theorem ready_init (prog : CStr) (args : List CStr) : Ready [prog] [] args (GState.init (prog :: args)) :=
  ⟨by simp, by simp, 0, by simp [permute, GState.init]⟩

theorem cmdline_length {flag val : Char → Prop} {args : List CStr} {es : List (Char × Option CStr)} {ps : List CStr}
    (h : CmdLine flag val args es ps) : es.length ≤ (args.map List.length).sum := by
  induction h with
  | nil => simp
  | name => simp at *; omega
  | flags => simp at *; omega
  | joined => simp at *; omega
  | apart => simp at *; omega

theorem cmdline_events {flag val : Char → Prop} {args : List CStr} {es : List (Char × Option CStr)} {ps : List CStr}
    (h : CmdLine flag val args es ps) {n : ℕ} (hn : ∀ a ∈ args, a.length < n) :
    (∀ e ∈ es, flag e.1 ∧ e.2 = none ∨ val e.1 ∧ ∃ v, e.2 = some v ∧ v.length < n) ∧ ∀ a ∈ ps, a.length < n := by
  induction h with
  | nil => simp
  | name a _ _ ih =>
    obtain ⟨h1, h2⟩ := ih (fun b hb => hn b (by simp [hb]))
    refine ⟨h1, ?_⟩
    intro b hb
    rcases List.mem_cons.1 hb with rfl | hb
    · exact hn _ (by simp)
    · exact h2 b hb
  | flags c fs hf _ ih =>
    obtain ⟨h1, h2⟩ := ih (fun b hb => hn b (by simp [hb]))
    refine ⟨?_, h2⟩
    intro e he
    rcases List.mem_append.1 he with he | he
    · obtain ⟨x, hx, rfl⟩ := List.mem_map.1 he
      exact Or.inl ⟨hf x hx, rfl⟩
    · exact h1 e he
  | joined fs hf c hc v hv _ ih =>
    obtain ⟨h1, h2⟩ := ih (fun b hb => hn b (by simp [hb]))
    refine ⟨?_, h2⟩
    intro e he
    rcases List.mem_append.1 he with he | he
    · obtain ⟨x, hx, rfl⟩ := List.mem_map.1 he
      exact Or.inl ⟨hf x hx, rfl⟩
    · rcases List.mem_cons.1 he with rfl | he
      · refine Or.inr ⟨hc, v, rfl, ?_⟩
        have := hn ('-' :: (fs ++ c :: v)) (by simp)
        simp at this; omega
      · exact h1 e he
  | apart fs hf c hc v _ ih =>
    obtain ⟨h1, h2⟩ := ih (fun b hb => hn b (by simp [hb]))
    refine ⟨?_, h2⟩
    intro e he
    rcases List.mem_append.1 he with he | he
    · obtain ⟨x, hx, rfl⟩ := List.mem_map.1 he
      exact Or.inl ⟨hf x hx, rfl⟩
    · rcases List.mem_cons.1 he with rfl | he
      · exact Or.inr ⟨hc, v, rfl, hn v (by simp)⟩
      · exact h1 e he

section
variable (hd : '-' ∉ os) {flag val : Char → Prop} (hF : ∀ c, flag c → IsFlag os c)
  (hV : ∀ c, val c → IsVal os c) {args : List CStr} {es : List (Char × Option CStr)} {ps : List CStr}
  (h : CmdLine flag val args es ps)
include hd hF hV h

/-- The loop on a complete command line. -/
theorem loop_end (prog : CStr) : ∃ argv i, argv.drop i = ps ∧ ∀ (n : ℕ) (c : σ), es.length < n →
    getoptLoop os step n (GState.init (prog :: args)) c = foldSteps step es c >>= fun c' => .ok (c', argv, i) := by
  obtain ⟨P, s, h1, h2⟩ := loop_cmdline (step := step) hd hF hV h [prog] [] [] (GState.init (prog :: args))
    (by simpa using ready_init prog args)
  obtain ⟨s', h3, h4, h5⟩ := getopt_done os h1
  refine ⟨s'.argv, s'.optind, by rw [h4, h5]; simp, fun n c hn => ?_⟩
  obtain ⟨m, rfl⟩ : ∃ m, n = es.length + (m + 1) := ⟨n - es.length - 1, by omega⟩
  rw [h2]
  congr 1
  funext c'
  simp [getoptLoop, h3]

/-- The loop on a command line with `--`. -/
theorem loop_dashes (prog : CStr) (tail : List CStr) : ∃ argv i, argv.drop i = tail ∧
    ∀ (n : ℕ) (c : σ), es.length < n →
    getoptLoop os step n (GState.init (prog :: (args ++ ['-', '-'] :: tail))) c =
      foldSteps step es c >>= fun c' => .ok (c', argv, i) := by
  obtain ⟨P, s, h1, h2⟩ := loop_cmdline (step := step) hd hF hV h [prog] [] (['-', '-'] :: tail)
    (GState.init (prog :: (args ++ ['-', '-'] :: tail))) (ready_init prog _)
  obtain ⟨s', h3, h4, h5⟩ := getopt_dashes os h1
  refine ⟨s'.argv, s'.optind, ?_, fun n c hn => ?_⟩
  · rw [h4, h5]
    have : P ++ ([] ++ ps) ++ ['-', '-'] :: tail = (P ++ ps ++ [['-', '-']]) ++ tail := by simp
    rw [this, List.drop_left']
    simp [Nat.add_assoc]
  obtain ⟨m, rfl⟩ : ∃ m, n = es.length + (m + 1) := ⟨n - es.length - 1, by omega⟩
  rw [h2]
  congr 1
  funext c'
  simp [getoptLoop, h3]

/-- The loop on a command line with a letter that is not in the option string. -/
theorem loop_bad (prog : CStr) (gs : List Char) (hg : ∀ x ∈ gs, flag x) (b : Char) (hb : b ∉ os) (bs : CStr)
    (hw : gs ++ b :: bs ≠ ['-']) (tail : List CStr) (n : ℕ) (c : σ) (hn : es.length + gs.length < n) :
    getoptLoop os step n (GState.init (prog :: (args ++ ('-' :: (gs ++ b :: bs)) :: tail))) c =
      foldSteps step (es ++ gs.map (·, none)) c >>= fun _ => .exit := by
  obtain ⟨P, s, h1, h2⟩ := loop_cmdline (step := step) hd hF hV h [prog] [] (('-' :: (gs ++ b :: bs)) :: tail)
    (GState.init (prog :: (args ++ ('-' :: (gs ++ b :: bs)) :: tail))) (ready_init prog _)
  obtain ⟨d, ds, hds⟩ : ∃ d ds, gs ++ b :: bs = d :: ds := by cases gs <;> simp
  rw [hds] at h1
  obtain ⟨k, hk⟩ := loop_word (step := step) h1 (by
    by_contra hc
    simp at hc
    rw [hc.1, hc.2] at hds
    exact hw hds) gs (fun x hx => hF x (hg x hx)) (b :: bs) (by simp) hds.symm
  obtain ⟨m, rfl⟩ : ∃ m, n = es.length + ((gs.length + m) + 1) := ⟨n - es.length - gs.length - 1, by omega⟩
  rw [h2, foldSteps_append, res_bind_assoc]
  congr 1
  funext c'
  rw [Nat.add_assoc, hk]
  congr 1
  funext c''
  rw [getoptLoop.eq_def]
  simp only [getopt_inside]
  have ha : afterOpt os b = none := by
    cases e : afterOpt os b with
    | none => rfl
    | some t => exact absurd (afterOpt_mem e) hb
  simp only [shortOpts, ha]
  by_cases hbs : bs = [] <;> simp [hbs]

/-- The loop on a command line that ends with an option whose value is missing. -/
theorem loop_missing (prog : CStr) (gs : List Char) (hg : ∀ x ∈ gs, flag x) (b : Char) (hb : val b)
    (n : ℕ) (c : σ) (hn : es.length + gs.length < n) :
    getoptLoop os step n (GState.init (prog :: (args ++ ['-' :: (gs ++ [b])]))) c =
      foldSteps step (es ++ gs.map (·, none)) c >>= fun _ => .exit := by
  obtain ⟨P, s, h1, h2⟩ := loop_cmdline (step := step) hd hF hV h [prog] [] ['-' :: (gs ++ [b])]
    (GState.init (prog :: (args ++ ['-' :: (gs ++ [b])]))) (ready_init prog _)
  obtain ⟨d, ds, hds⟩ : ∃ d ds, gs ++ [b] = d :: ds := by cases gs <;> simp
  have hdd : d ≠ '-' := by
    cases gs with
    | nil => simp at hds; rw [← hds.1]; exact IsVal.ne_dash hd (hV b hb)
    | cons x gs => simp at hds; rw [← hds.1]; exact IsFlag.ne_dash hd (hF x (hg x (by simp)))
  rw [hds] at h1
  obtain ⟨k, hk⟩ := loop_word (step := step) h1 (Or.inl hdd) gs (fun x hx => hF x (hg x hx)) [b] (by simp) hds.symm
  obtain ⟨m, rfl⟩ : ∃ m, n = es.length + ((gs.length + m) + 1) := ⟨n - es.length - gs.length - 1, by omega⟩
  rw [h2, foldSteps_append, res_bind_assoc]
  congr 1
  funext c'
  rw [Nat.add_assoc, hk]
  congr 1
  funext c''
  rw [getoptLoop.eq_def]
  simp only [getopt_inside]
  obtain ⟨t, ht1, ht2⟩ := hV b hb
  simp only [shortOpts, ht1]
  rw [atOpt_argv, atOpt_optind]
  simp [ht2, Nat.add_assoc]

end

end Mica
