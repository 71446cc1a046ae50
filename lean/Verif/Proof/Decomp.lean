import Verif.Model.Decomp
import Verif.Proof.ReconLine

/-! Helper lemmas about the decomposition of lines. -/

namespace Mica

open Matrix

/-! ### The two texts of the gamma and exponential functions -/

/-- As `FarRel`, for the test on the difference of the rates made in src/line_decomp.c. -/
def FarInv (t w : ℝ) : Prop := w = t ∨ kEPS ≤ |(t - w) / t / w|

theorem inv_self (t : ℝ) : |(t - t) / t / t| < kEPS := by
  simp only [sub_self, zero_div, abs_zero]; exact kEPS_pos

theorem slcExpS_eq {t : ℝ} (ht : 0 < t) {a : Comp} (hw : 0 < a.w) (hf : FarRel t a.w) (hf' : FarInv t a.w) (Dt : ℝ) :
    slcExpS t a Dt = slcExp t a Dt := by
  obtain ⟨f, c, w⟩ := a
  simp only at hw hf hf'
  unfold slcExpS slcExp
  simp only
  generalize Dt - (c - w) = x
  split
  · field_simp
  · by_cases hwt : w = t
    · subst hwt
      rw [if_pos (rel_self w), if_pos (inv_self w)]
      generalize Real.exp (-x / w) = X
      field_simp
    · have h1 := hf.resolve_left hwt
      have h2 := hf'.resolve_left hwt
      have hne : t - w ≠ 0 := sub_ne_zero.2 (Ne.symm hwt)
      rw [if_neg (not_lt.2 h1), if_neg (not_lt.2 h2)]
      generalize Real.exp (-x / t) = X
      generalize Real.exp (-x / w) = Y
      field_simp

theorem slcGamS_eq {t : ℝ} (ht : 0 < t) {a : Comp} (hw : 0 < a.w) (hf : FarRel t a.w) (hf' : FarInv t a.w) (Dt : ℝ) :
    slcGamS t a Dt = slcGam t a Dt := by
  obtain ⟨f, c, w⟩ := a
  simp only at hw hf hf'
  unfold slcGamS slcGam
  simp only
  generalize Dt - (c - 2 * w) = x
  split
  · field_simp
  · by_cases hwt : w = t
    · subst hwt
      rw [if_pos (rel_self w), if_pos (inv_self w)]
      generalize Real.exp (-x / w) = X
      field_simp
    · have h1 := hf.resolve_left hwt
      have h2 := hf'.resolve_left hwt
      have hne : t - w ≠ 0 := sub_ne_zero.2 (Ne.symm hwt)
      rw [if_neg (not_lt.2 h1), if_neg (not_lt.2 h2)]
      generalize Real.exp (-x / t) = X
      generalize Real.exp (-x / w) = Y
      field_simp

theorem p5_eq {t w v : ℝ} (ht : 0 < t) (hw : 0 < w) (hv : 0 < v) :
    (t - w) / t / w + (t + v) / t / v = (w + v) / (w * v) := by
  field_simp; ring

theorem sllExpS_eq {t : ℝ} (ht : 0 < t) {a b : Comp} (hw : 0 < a.w) (hv : 0 < b.w) (hf : FarRel t a.w) (hf' : FarInv t a.w)
    (hg : FarRel t b.w) (hg' : FarInv t b.w) (Dt : ℝ) :
    sllExpS t a b Dt = sllExpExp t a b Dt := by
  obtain ⟨f, c, w⟩ := a
  obtain ⟨g, e, v⟩ := b
  simp only at hw hv hf hg hf' hg'
  unfold sllExpS sllExpExp
  simp only [p5_eq ht hw hv]
  generalize Dt - (c - w - (e - v)) = x
  split
  · by_cases hwt : v = t
    · subst hwt
      rw [if_pos (rel_self v), if_pos (inv_self v)]
      generalize Real.exp (x / v) = X
      field_simp
    · have h1 := hg.resolve_left hwt
      have h2 := hg'.resolve_left hwt
      have hne : t - v ≠ 0 := sub_ne_zero.2 (Ne.symm hwt)
      rw [if_neg (not_lt.2 h1), if_neg (not_lt.2 h2)]
      generalize Real.exp (x / t) = X
      generalize Real.exp (x / v) = Y
      field_simp
  · by_cases hwt : w = t
    · subst hwt
      rw [if_pos (rel_self w), if_pos (inv_self w)]
      generalize Real.exp (-x / w) = X
      field_simp
    · have h1 := hf.resolve_left hwt
      have h2 := hf'.resolve_left hwt
      have hne : t - w ≠ 0 := sub_ne_zero.2 (Ne.symm hwt)
      rw [if_neg (not_lt.2 h1), if_neg (not_lt.2 h2)]
      generalize Real.exp (-x / t) = X
      generalize Real.exp (-x / w) = Y
      field_simp

theorem sllGamS_eq {t : ℝ} (ht : 0 < t) {a b : Comp} (hw : 0 < a.w) (hv : 0 < b.w) (hf : FarRel t a.w) (hf' : FarInv t a.w)
    (hg : FarRel t b.w) (hg' : FarInv t b.w) (Dt : ℝ) :
    sllGamS t a b Dt = sllGamGam t a b Dt := by
  obtain ⟨f, c, w⟩ := a
  obtain ⟨g, e, v⟩ := b
  simp only at hw hv hf hg hf' hg'
  unfold sllGamS sllGamGam
  simp only [p5_eq ht hw hv]
  generalize Dt - (c - 2 * w - (e - 2 * v)) = x
  split
  · by_cases hwt : v = t
    · subst hwt
      rw [if_pos (rel_self v), if_pos (inv_self v)]
      generalize Real.exp (x / v) = X
      field_simp
    · have h1 := hg.resolve_left hwt
      have h2 := hg'.resolve_left hwt
      have hne : t - v ≠ 0 := sub_ne_zero.2 (Ne.symm hwt)
      rw [if_neg (not_lt.2 h1), if_neg (not_lt.2 h2)]
      generalize Real.exp (x / t) = X
      generalize Real.exp (x / v) = Y
      field_simp
  · by_cases hwt : w = t
    · subst hwt
      rw [if_pos (rel_self w), if_pos (inv_self w)]
      generalize Real.exp (-x / w) = X
      field_simp
    · have h1 := hf.resolve_left hwt
      have h2 := hf'.resolve_left hwt
      have hne : t - w ≠ 0 := sub_ne_zero.2 (Ne.symm hwt)
      rw [if_neg (not_lt.2 h1), if_neg (not_lt.2 h2)]
      generalize Real.exp (-x / t) = X
      generalize Real.exp (-x / w) = Y
      field_simp


/-! ### `USmat` -/

/-- Covariance of the contribution (functions `K1`) to the light curve of `x`, if it is a line, or of the
continuum, with the point `y`. -/
noncomputable def partPt (K K1 : Kernels) (tau : ℝ) (x y : ℕ × ℝ) : ℝ :=
  if x.1 = 0 then pointCov K tau x y else pointCov K1 tau x y

theorem US_single_eq (K K1 : Kernels) (d R : DSet) (tau : ℝ) (mem : ℕ → ℝ) :
    matOf (runWrites (uWritesS K K1 tau d R) mem) R.nall d.nall =
      fun (p : Fin R.nall) (q : Fin d.nall) => partPt K K1 tau (R.pt p) (d.pt q) := by
  ext p q
  let V : ℕ → ℝ := fun a => partPt K K1 tau (R.pt (a / d.nall)) (d.pt (a % d.nall))
  have hV : ∀ {r c : ℕ}, c < d.nall → V (r * d.nall + c) = partPt K K1 tau (R.pt r) (d.pt c) := by
    intro r c hc
    simp only [V, addr_div hc, addr_mod hc]
  have hmain : runWrites (uWritesS K K1 tau d R) mem (p * d.nall + q) = V (p * d.nall + q) := by
    apply runWrites_eq
    · intro w hw
      simp only [uWritesS, List.mem_append, List.mem_flatMap, List.mem_map, List.mem_range, mem_uRow, mem_uLines] at hw
      rcases hw with ⟨i, hi, ⟨j, hj, rfl⟩ | ⟨pre, a, post, hl, j, hj, rfl⟩⟩ | ⟨pre, a, post, hl, i, hi, hw⟩
      · simp only
        rw [hV (con_lt_nall d hj), pt_con R hi, pt_con d hj]; rfl
      · simp only
        rw [hV (locate_line d hl hj).2.2, pt_con R hi, pt_line d hl hj, zero_add]; rfl
      · rcases hw with ⟨j, hj, rfl⟩ | ⟨pre', b, post', hl', j, hj, rfl⟩
        · simp only
          rw [hV (con_lt_nall d hj), pt_line R hl hi, pt_con d hj, zero_add]; rfl
        · simp only
          rw [hV (locate_line d hl' hj).2.2, pt_line R hl hi, pt_line d hl' hj, zero_add, zero_add]; rfl
    · simp only [uWritesS, List.mem_append, List.mem_flatMap, List.mem_map, List.mem_range, mem_uRow, mem_uLines]
      rcases point_cases R p.2 with h | ⟨pre, a, post, i, h1, h2, h3⟩ <;>
        rcases point_cases d q.2 with k | ⟨pre', b, post', j, k1, k2, k3⟩
      · exact ⟨_, Or.inl ⟨p, h, Or.inl ⟨q, k, rfl⟩⟩, rfl⟩
      · exact ⟨_, Or.inl ⟨p, h, Or.inr ⟨pre', b, post', k1, j, k2, rfl⟩⟩, by rw [k3]⟩
      · exact ⟨_, Or.inr ⟨pre, a, post, h1, i, h2, Or.inl ⟨q, k, rfl⟩⟩, by rw [h3]⟩
      · exact ⟨_, Or.inr ⟨pre, a, post, h1, i, h2, Or.inr ⟨pre', b, post', k1, j, k2, rfl⟩⟩, by rw [h3, k3]⟩
  rw [matOf, hmain, hV q.2]

/-! ### The diagonal of `ASmat` -/

/-- The value written where only one value is ever written. -/
theorem runWrites_at (ws : List (ℕ × ℝ)) (mem : ℕ → ℝ) (v : ℝ) (a : ℕ) (hV : ∀ w ∈ ws, w.1 = a → w.2 = v)
    (ha : ∃ w ∈ ws, w.1 = a) : runWrites ws mem a = v := by
  induction ws generalizing mem with
  | nil => obtain ⟨w, hw, _⟩ := ha; simp at hw
  | cons w ws ih =>
    rw [runWrites, List.foldl_cons, ← runWrites]
    by_cases h : ∃ x ∈ ws, x.1 = a
    · exact ih _ (fun x hx => hV x (List.mem_cons_of_mem _ hx)) h
    · rw [runWrites_notMem _ _ _ fun x hx e => h ⟨x, hx, e⟩]
      obtain ⟨x, hx, e⟩ := ha
      rcases List.mem_cons.1 hx with rfl | hx
      · rw [← e, Function.update_self]; exact hV _ List.mem_cons_self e
      · exact absurd ⟨x, hx, e⟩ h

theorem offdiag {nt r c p : ℕ} (hc : c < nt) (h : r ≠ c) (hp : p < nt) : r * nt + c ≠ p * nt + p := by
  intro e
  have h1 := congrArg (· / nt) e
  have h2 := congrArg (· % nt) e
  simp only [addr_div hc, addr_div hp, addr_mod hc, addr_mod hp] at h1 h2
  omega

theorem both_off {nt r c : ℕ} {v : ℝ} (hr : r < nt) (hc : c < nt) (h : r ≠ c) {w : ℕ × ℝ} (hw : w ∈ both nt r c v) {p : ℕ}
    (hp : p < nt) : w.1 ≠ p * nt + p := by
  simp only [both, List.mem_cons, List.not_mem_nil, or_false] at hw
  rcases hw with rfl | rfl
  · exact offdiag hr (Ne.symm h) hp
  · exact offdiag hc h hp

theorem lcRow_off (S : ℝ → ℝ → ℕ → ℝ) (nt i : ℕ) (t1 : ℝ) (l : List LC) (j np : ℕ) (hi : i < np) (hn : np + totalN l ≤ nt)
    {w : ℕ × ℝ} (hw : w ∈ lcRow S nt i t1 l j np) {p : ℕ} (hp : p < nt) : w.1 ≠ p * nt + p := by
  induction l generalizing j np with
  | nil => simp [lcRow] at hw
  | cons a l ih =>
    simp only [totalN] at hn
    simp only [lcRow, List.mem_append, List.mem_flatMap, List.mem_range] at hw
    rcases hw with ⟨m, hm, hw⟩ | hw
    · exact both_off (by omega) (by omega) (by omega) hw hp
    · exact ih _ _ (by omega) (by omega) hw

theorem llRow_off (S : ℝ → ℝ → ℕ → ℕ → ℝ) (nt r : ℕ) (t1 : ℝ) (j : ℕ) (l : List LC) (k np : ℕ) (hi : r < np)
    (hn : np + totalN l ≤ nt) {w : ℕ × ℝ} (hw : w ∈ llRow S nt r t1 j l k np) {p : ℕ} (hp : p < nt) : w.1 ≠ p * nt + p := by
  induction l generalizing k np with
  | nil => simp [llRow] at hw
  | cons a l ih =>
    simp only [totalN] at hn
    simp only [llRow, List.mem_append, List.mem_flatMap, List.mem_range] at hw
    rcases hw with ⟨m, hm, hw⟩ | hw
    · exact both_off (by omega) (by omega) (by omega) hw hp
    · exact ih _ _ (by omega) (by omega) hw

theorem aLinesS_diag (S : SKernels) (nt : ℕ) (l : List LC) (k np : ℕ) (hn : np + totalN l ≤ nt) {p : ℕ} (hp : p < nt)
    {w : ℕ × ℝ} (hw : w ∈ aLinesS S nt l k np) (h : w.1 = p * nt + p) :
    ∃ pre a post, l = pre ++ a :: post ∧ ∃ j < a.n, p = np + totalN pre + j ∧ w.2 = S.auto (a.t j) (k + pre.length) := by
  induction l generalizing k np with
  | nil => simp [aLinesS] at hw
  | cons a l ih =>
    simp only [totalN] at hn
    simp only [aLinesS, List.mem_append, List.mem_flatMap, List.mem_range, List.mem_singleton] at hw
    rcases hw with ⟨j, hj, (⟨i, hi, hw⟩ | rfl) | hw⟩ | hw
    · exact absurd h (both_off (by omega) (by omega) (by omega) hw hp)
    · refine ⟨[], a, l, rfl, j, hj, ?_, rfl⟩
      have := congrArg (· % nt) h
      simp only [addr_mod hp] at this
      rw [addr_mod (by omega)] at this
      simp only [totalN]; omega
    · exact absurd h (llRow_off _ _ _ _ _ _ _ _ (by omega) (by omega) hw hp)
    · obtain ⟨pre, b, post, rfl, j, hj, hp', hv⟩ := ih (k + 1) (np + a.n) (by omega) hw
      refine ⟨a :: pre, b, post, rfl, j, hj, ?_, ?_⟩
      · simp only [totalN]; omega
      · rw [hv, List.length_cons]; congr 1; omega

theorem aLinesS_cover (S : SKernels) (nt : ℕ) (l : List LC) (k np : ℕ) {pre : List LC} {a : LC} {post : List LC}
    (hl : l = pre ++ a :: post) {j : ℕ} (hj : j < a.n) :
    ∃ w ∈ aLinesS S nt l k np, w.1 = (np + totalN pre + j) * nt + (np + totalN pre + j) := by
  induction pre generalizing l k np with
  | nil =>
    subst hl
    refine ⟨((np + j) * nt + (np + j), S.auto (a.t j) k), ?_, by simp [totalN]⟩
    simp only [List.nil_append, aLinesS, List.mem_append, List.mem_flatMap, List.mem_range, List.mem_singleton]
    exact Or.inl ⟨j, hj, Or.inl (Or.inr rfl)⟩
  | cons b pre ih =>
    subst hl
    obtain ⟨w, hw, e⟩ := ih (pre ++ a :: post) (k + 1) (np + b.n) rfl
    refine ⟨w, ?_, ?_⟩
    · rw [List.cons_append, aLinesS, List.mem_append]; exact Or.inr hw
    · rw [e]; simp only [totalN, add_assoc]

/-- Variance of the contribution to a point. -/
noncomputable def partDiag (S : SKernels) (x : ℕ × ℝ) : ℝ :=
  match x.1 with
  | 0 => 1
  | s + 1 => S.auto x.2 s

theorem AS_single_diag (K : Kernels) (S : SKernels) (R : DSet) (tau : ℝ) (mem : ℕ → ℝ) (p : Fin R.nall) :
    matOf (runWrites (aWritesS K S tau R) mem) R.nall R.nall p p = partDiag S (R.pt p) := by
  have hn : R.con.n + totalN R.line = R.nall := rfl
  have hp := p.2
  rw [matOf]
  apply runWrites_at
  · intro w hw e
    simp only [aWritesS, List.mem_append, List.mem_flatMap, List.mem_range, List.mem_singleton] at hw
    rcases hw with ⟨i, hi, (⟨j, hj, hw⟩ | rfl) | hw⟩ | hw
    · exact absurd e (both_off (by omega) (by omega) (by omega) hw hp)
    · have := congrArg (· % R.nall) e
      simp only [addr_mod hp] at this
      rw [addr_mod (by omega)] at this
      rw [← this, pt_con R hi]; rfl
    · exact absurd e (lcRow_off _ _ _ _ _ _ _ (by omega) (by omega) hw hp)
    · obtain ⟨pre, a, post, hl, j, hj, e', hv⟩ := aLinesS_diag S R.nall R.line 0 R.con.n (by omega) hp hw e
      rw [hv, e', pt_line R hl hj, zero_add]; rfl
  · rcases point_cases R hp with h | ⟨pre, a, post, j, hl, hj, e⟩
    · refine ⟨(p * R.nall + p, 1), ?_, rfl⟩
      simp only [aWritesS, List.mem_append, List.mem_flatMap, List.mem_range, List.mem_singleton]
      exact Or.inl ⟨p, h, Or.inl (Or.inr rfl)⟩
    · obtain ⟨w, hw, e'⟩ := aLinesS_cover S R.nall R.line 0 R.con.n hl hj
      refine ⟨w, ?_, ?_⟩
      · rw [aWritesS, List.mem_append]; exact Or.inr hw
      · rw [e', e]

/-! ### `Larr_rec` -/

theorem trendRowS_eq (nq : ℕ) (wt : ℕ → ℝ) (l : List LC) (s0 p c : ℕ) (hp : p < totalN l) :
    trendRowS nq wt l s0 p c = (if s0 + (locate l p).1 = 0 then 1 else wt (s0 + (locate l p).1 - 1)) * trendRow nq l s0 p c := by
  induction l generalizing s0 p with
  | nil => simp [totalN] at hp
  | cons a l ih =>
    simp only [totalN] at hp
    rw [trendRowS, trendRow, locate]
    by_cases h : p < a.n
    · simp only [if_pos h, add_zero]
      split
      · rw [mul_comm]
      · rw [mul_zero]
    · simp only [if_neg h]
      rw [ih _ _ (by omega)]
      congr 2
      · rw [show s0 + 1 + (locate l (p - a.n)).1 = s0 + ((locate l (p - a.n)).1 + 1) by omega]
      · rw [show s0 + 1 + (locate l (p - a.n)).1 = s0 + ((locate l (p - a.n)).1 + 1) by omega]

/-- Weight of the trend at a point. -/
noncomputable def ptWeight (wt : ℕ → ℝ) (x : ℕ × ℝ) : ℝ := if x.1 = 0 then 1 else wt (x.1 - 1)

theorem trendRowS_pt (R : DSet) (nq N : ℕ) (wt : ℕ → ℝ) {p : ℕ} (hp : p < R.nall) :
    (fun c : Fin (nq * N) => trendRowS nq wt R.series 0 p c) = ptWeight wt (R.pt p) • trendAt nq (nq * N) (R.pt p) := by
  rw [← trendRow_pt R nq N hp]
  ext c
  rw [trendRowS_eq _ _ _ _ _ _ hp, zero_add]
  rfl

/-! ### Best prediction with known trend -/

section known
variable {n q m : ℕ} {C : Matrix (Fin n) (Fin n) ℝ}

theorem predErr_known (hC : C.PosDef) (s : Fin n → ℝ) (a : ℝ) (w : Fin n → ℝ) :
    predErr C s a w = (a - s ⬝ᵥ C⁻¹.mulVec s) + (w - C⁻¹.mulVec s) ⬝ᵥ C.mulVec (w - C⁻¹.mulVec s) := by
  have hs := posDef_symm hC
  have h1 : C.mulVec (C⁻¹.mulVec s) = s := mulVec_inv_cancel hC s
  have h2 : C⁻¹.mulVec s ⬝ᵥ C.mulVec w = w ⬝ᵥ s := by
    rw [dot_mulVec_transpose, hs, h1, dotProduct_comm]
  unfold predErr
  rw [Matrix.mulVec_sub, h1, sub_dotProduct, dotProduct_sub, dotProduct_sub, h2, dotProduct_comm (C⁻¹.mulVec s) s]
  ring

theorem predErr_least (hC : C.PosDef) (s : Fin n → ℝ) (a : ℝ) :
    IsLeast (Set.range (predErr C s a)) (a - s ⬝ᵥ C⁻¹.mulVec s) := by
  constructor
  · exact ⟨C⁻¹.mulVec s, by rw [predErr_known hC]; simp⟩
  · rintro _ ⟨w, rfl⟩
    rw [predErr_known hC]
    have := hC.posSemidef.dotProduct_mulVec_nonneg (w - C⁻¹.mulVec s)
    rw [star_trivial] at this
    linarith

theorem decompose_eq {PC : Matrix (Fin n) (Fin n) ℝ} {U : Matrix (Fin m) (Fin n) ℝ} {A : Matrix (Fin m) (Fin m) ℝ}
    {L : Matrix (Fin n) (Fin q) ℝ} {Lrec : Matrix (Fin m) (Fin q) ℝ} (f : Fin n → ℝ) (sigma : ℝ)
    (hC : PC.PosDef) (hL : Function.Injective L.mulVec) :
    decompose PC U A L Lrec f sigma = .ok ⟨glsCoef PC L f,
      fun i => U i ⬝ᵥ PC⁻¹.mulVec (f - L.mulVec (glsCoef PC L f)) + Lrec i ⬝ᵥ glsCoef PC L f,
      fun i => (cSqrt (A i i - U i ⬝ᵥ PC⁻¹.mulVec (U i))).map fun s => sigma * s⟩ := by
  have hq := trend_posDef hC hL
  have hs := inv_symm (posDef_symm hC)
  have hy : (PC⁻¹ * L)ᵀ.mulVec f = Lᵀ.mulVec (PC⁻¹.mulVec f) := by
    rw [Matrix.transpose_mul, hs, Matrix.mulVec_mulVec]
  have hq' : glsCoef PC L f = (Lᵀ * (PC⁻¹ * L))⁻¹.mulVec (Lᵀ.mulVec (PC⁻¹.mulVec f)) := rfl
  have hd : ∀ i, (U * (PC⁻¹ * Uᵀ)) i i = U i ⬝ᵥ PC⁻¹.mulVec (U i) := by
    intro i
    simp only [Matrix.mul_apply, Matrix.mulVec, dotProduct, transpose_apply]
  simp only [decompose, luInv_posDef hC, Res.ok_bind, luInv_posDef hq, hy, ← hq', hd]
  rfl

end known

end Mica
