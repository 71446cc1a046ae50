import Verif.Spec.Workspace
import Mathlib.Tactic.Ring
import Mathlib.Tactic.Linarith
import Mathlib.Algebra.BigOperators.Group.List.Basic
import Mathlib.Order.Monotone.Basic

namespace Mica

/-- An access stays within `[lo, hi)`. -/
def Acc.within (a : Acc) (lo hi : ℕ) : Prop :=
  0 < a.per ∧ lo ≤ a.ptr ∧ a.cols ≤ a.stride ∧ a.ptr + (a.rows * a.stride + (a.per - 1)) / a.per ≤ hi

theorem Acc.within_touches {a : Acc} {lo hi x : ℕ} (h : a.within lo hi) (hx : a.touches x) : lo ≤ x ∧ x < hi := by
  obtain ⟨hp, hlo, hc, hhi⟩ := h
  obtain ⟨i, hi', j, hj, rfl⟩ := hx
  refine ⟨Nat.le_add_right_of_le hlo, ?_⟩
  have h1 : i * a.stride + j + 1 ≤ a.rows * a.stride := by
    have : (i + 1) * a.stride ≤ a.rows * a.stride := Nat.mul_le_mul_right _ hi'
    rw [Nat.add_mul, Nat.one_mul] at this
    omega
  have h2 : (i * a.stride + j) / a.per + 1 ≤ (a.rows * a.stride + (a.per - 1)) / a.per := by
    rw [← Nat.add_div_right _ hp]
    exact Nat.div_le_div_right (by omega)
  omega

theorem Acc.vec_within {b : Buf} {k p n lo hi : ℕ} (h1 : lo ≤ p) (h2 : p + n ≤ hi) :
    (Acc.vec b k p n).within lo hi := by
  simp only [Acc.within, Acc.vec, Nat.sub_self, Nat.add_zero, Nat.div_one, Nat.one_mul]
  exact ⟨Nat.one_pos, h1, le_refl _, h2⟩

theorem Acc.mat_within {b : Buf} {k p r c lo hi : ℕ} (h1 : lo ≤ p) (h2 : p + r * c ≤ hi) :
    (Acc.mat b k p r c).within lo hi := by
  simp only [Acc.within, Acc.mat, Nat.sub_self, Nat.add_zero, Nat.div_one]
  exact ⟨Nat.one_pos, h1, le_refl _, h2⟩

theorem Acc.ints_within {b : Buf} {k p n lo hi : ℕ} (h1 : lo ≤ p) (h2 : p + (n + 1) / 2 ≤ hi) :
    (Acc.ints b k p n).within lo hi := by
  simp only [Acc.within, Acc.ints, Nat.one_mul]
  exact ⟨by omega, h1, le_refl _, h2⟩

/-- The boundaries of the areas of every array: prefix sums of the reserved sizes in the array `b0`, one
single area in each of the others. -/
def lay (b0 : Buf) (sizes : List ℕ) (size : Buf → ℕ) (b : Buf) (k : ℕ) : ℕ :=
  if b = b0 then (sizes.take k).sum else if k = 0 then 0 else size b

theorem lay_mono (b0 : Buf) (sizes : List ℕ) (size : Buf → ℕ) (b : Buf) : Monotone (lay b0 sizes size b) := by
  intro k k' hk
  unfold lay
  split
  · have : sizes.take k = (sizes.take k').take k := by rw [List.take_take, Nat.min_eq_left hk]
    rw [this]
    conv_rhs => rw [← List.take_append_drop k (sizes.take k'), List.sum_append]
    omega
  · split
    · omega
    · rw [if_neg (by omega)]

theorem safe_touches {b0 : Buf} {sizes : List ℕ} {size : Buf → ℕ} {l : List Acc} (hsz : sizes.sum ≤ size b0)
    (h : ∀ a ∈ l, ∀ x, a.touches x → lay b0 sizes size a.buf a.area ≤ x ∧
      x < lay b0 sizes size a.buf (a.area + 1)) :
    InBounds size l ∧ Separate l := by
  constructor
  · intro a ha x hx
    have h1 := (h a ha x hx).2
    unfold lay at h1
    split at h1
    · rename_i e
      have : (sizes.take (a.area + 1)).sum ≤ sizes.sum := by
        conv_rhs => rw [← List.take_append_drop (a.area + 1) sizes, List.sum_append]
        omega
      rw [e]; omega
    · rwa [if_neg (by omega)] at h1
  · intro a ha b hb hbuf hne x hx hy
    have h1 := h a ha x hx
    have h2 := h b hb x hy
    rw [hbuf] at h1
    rcases Nat.lt_or_gt_of_ne hne with hlt | hlt
    · have := lay_mono b0 sizes size b.buf (show a.area + 1 ≤ b.area from hlt)
      omega
    · have := lay_mono b0 sizes size b.buf (show b.area + 1 ≤ a.area from hlt)
      omega

theorem safe_of {b0 : Buf} {sizes : List ℕ} {size : Buf → ℕ} {l : List Acc} (hsz : sizes.sum ≤ size b0)
    (h : ∀ a ∈ l, a.within (lay b0 sizes size a.buf a.area) (lay b0 sizes size a.buf (a.area + 1))) :
    InBounds size l ∧ Separate l :=
  safe_touches hsz fun a ha _ hx => Acc.within_touches (h a ha) hx

/-- A block of a square matrix. -/
theorem sub_touches {b : Buf} {k r c rows nt cols x : ℕ} (hr : r + rows ≤ nt) (hc : c + cols ≤ nt)
    (h : (⟨b, k, r * nt + c, rows, nt, cols, 1⟩ : Acc).touches x) : x < nt * nt := by
  obtain ⟨i, hi, j, hj, rfl⟩ := h
  simp only [Nat.div_one] at hi hj ⊢
  have : (r + i + 1) * nt ≤ nt * nt := Nat.mul_le_mul_right _ (by omega)
  have e : (r + i + 1) * nt = r * nt + i * nt + nt := by ring
  omega

/-! ### The maxima -/

private theorem foldl_max_ge (l : List ℕ) : ∀ a, a ≤ l.foldl (fun a n => if a < n then n else a) a ∧
    ∀ n ∈ l, n ≤ l.foldl (fun a n => if a < n then n else a) a := by
  induction l with
  | nil => intro a; simp
  | cons b l ih =>
    intro a
    rw [List.foldl_cons]
    obtain ⟨h1, h2⟩ := ih (if a < b then b else a)
    have h3 : a ≤ (if a < b then b else a) ∧ b ≤ (if a < b then b else a) := by split <;> omega
    refine ⟨by omega, ?_⟩
    intro n hn
    rcases List.mem_cons.1 hn with rfl | hn
    · omega
    · exact h2 n hn

/-- What the maxima say about one data set. -/
structure Fits (m : Maxima) (d : DSize) : Prop where
  con : d.con ≤ m.ncon
  line : ∀ n ∈ d.lines, n ≤ m.nline
  all : d.all ≤ m.nall
  nl : d.nl ≤ m.nlset
  recCon : d.con * (1 + d.nl) ≤ m.nrec
  recLine : ∀ n ∈ d.lines, n * (1 + d.nl) ≤ m.nrec

/-- Componentwise order. -/
structure MLe (m m' : Maxima) : Prop where
  ncon : m.ncon ≤ m'.ncon
  nline : m.nline ≤ m'.nline
  nall : m.nall ≤ m'.nall
  nlset : m.nlset ≤ m'.nlset
  nrec : m.nrec ≤ m'.nrec

theorem step_le (m : Maxima) (d : DSize) : MLe m (m.step d) := by
  refine ⟨?_, (foldl_max_ge d.lines m.nline).1, ?_, ?_, le_max_left _ _⟩ <;>
    (simp only [Maxima.step]; split <;> omega)

theorem step_fits (m : Maxima) (d : DSize) : Fits (m.step d) d := by
  have hl := (foldl_max_ge d.lines m.nline).2
  have hc : d.con ≤ (m.step d).ncon := by simp only [Maxima.step]; split <;> omega
  refine ⟨hc, hl, ?_, ?_, ?_, ?_⟩
  · simp only [Maxima.step]; split <;> omega
  · simp only [Maxima.step]; split <;> omega
  · exact le_trans (Nat.mul_le_mul_right _ (le_trans hc (le_max_left _ _))) (le_max_right _ _)
  · intro n hn
    exact le_trans (Nat.mul_le_mul_right _ (le_trans (hl n hn) (le_max_right _ _))) (le_max_right _ _)

theorem Fits.mono {m m' : Maxima} {d : DSize} (h : Fits m d) (h' : MLe m m') : Fits m' d :=
  ⟨le_trans h.con h'.ncon, fun n hn => le_trans (h.line n hn) h'.nline, le_trans h.all h'.nall,
    le_trans h.nl h'.nlset, le_trans h.recCon h'.nrec, fun n hn => le_trans (h.recLine n hn) h'.nrec⟩

theorem fold_le (ds : List DSize) : ∀ m : Maxima, MLe m (ds.foldl Maxima.step m) := by
  induction ds with
  | nil => intro m; exact ⟨le_refl _, le_refl _, le_refl _, le_refl _, le_refl _⟩
  | cons d ds ih =>
    intro m
    have h1 := step_le m d
    have h2 := ih (m.step d)
    exact ⟨le_trans h1.1 h2.1, le_trans h1.2 h2.2, le_trans h1.3 h2.3, le_trans h1.4 h2.4, le_trans h1.5 h2.5⟩

theorem fold_fits (ds : List DSize) : ∀ (m : Maxima), ∀ d ∈ ds, Fits (ds.foldl Maxima.step m) d := by
  induction ds with
  | nil => intro m d h; simp at h
  | cons d' ds ih =>
    intro m d h
    rcases List.mem_cons.1 h with rfl | h
    · exact (step_fits m d).mono (fold_le ds _)
    · exact ih _ d h

/-- The facts about a data set used below; the reconstruction maximum carries the factor 3. -/
theorem maxima_fits {ds : List DSize} {d : DSize} (h : d ∈ ds) :
    d.con ≤ (maxima ds).ncon ∧ (∀ n ∈ d.lines, n ≤ (maxima ds).nline) ∧ d.all ≤ (maxima ds).nall ∧
    d.nl ≤ (maxima ds).nlset ∧ 3 * (d.con * (1 + d.nl)) ≤ (maxima ds).nrec ∧
    ∀ n ∈ d.lines, 3 * (n * (1 + d.nl)) ≤ (maxima ds).nrec := by
  have hf := fold_fits ds ⟨0, 0, 0, 0, 0⟩ d h
  refine ⟨hf.con, hf.line, hf.all, hf.nl, ?_, ?_⟩
  · have := hf.recCon
    simp only [maxima]; omega
  · intro n hn
    have := hf.recLine n hn
    simp only [maxima]; omega

theorem ncon_le_nall (ds : List DSize) : (maxima ds).ncon ≤ (maxima ds).nall := by
  have : ∀ (ds : List DSize) (m : Maxima), m.ncon ≤ m.nall →
      (ds.foldl Maxima.step m).ncon ≤ (ds.foldl Maxima.step m).nall := by
    intro ds
    induction ds with
    | nil => intro m h; exact h
    | cons d ds ih =>
      intro m h
      apply ih
      have h1 : d.con ≤ d.all := Nat.le_add_right _ _
      change (if m.ncon < d.con then d.con else m.ncon) ≤ (if m.nall < d.all then d.all else m.nall)
      split <;> split <;> omega
  exact this ds _ (le_refl _)

theorem foldl_maxf_mem (f : ℕ → ℕ) (l : List ℕ) : ∀ a, l.foldl (fun a n => max a (f n)) a = a ∨
    ∃ n ∈ l, l.foldl (fun a n => max a (f n)) a = f n := by
  induction l with
  | nil => intro a; exact Or.inl rfl
  | cons b l ih =>
    intro a
    rw [List.foldl_cons]
    rcases ih (max a (f b)) with h | ⟨n, hn, h⟩
    · rw [h]
      rcases le_total a (f b) with h' | h'
      · exact Or.inr ⟨b, List.mem_cons_self, max_eq_right h'⟩
      · exact Or.inl (max_eq_left h')
    · exact Or.inr ⟨n, List.mem_cons_of_mem _ hn, h⟩

theorem le_foldl_maxf (f : ℕ → ℕ) (l : List ℕ) : ∀ a, a ≤ l.foldl (fun a n => max a (f n)) a ∧
    ∀ n ∈ l, f n ≤ l.foldl (fun a n => max a (f n)) a := by
  induction l with
  | nil => intro a; simp
  | cons b l ih =>
    intro a
    rw [List.foldl_cons]
    obtain ⟨h1, h2⟩ := ih (max a (f b))
    refine ⟨le_trans (le_max_left _ _) h1, ?_⟩
    intro n hn
    rcases List.mem_cons.1 hn with rfl | hn
    · exact le_trans (le_max_right _ _) h1
    · exact h2 n hn

theorem ws_expand (nq : ℕ) (m : Maxima) : sharedSize nq m .workspace =
    5 * m.nall + 2 * (m.nall * wsCols nq m) + 2 * (m.nrec * wsCols nq m) + wsCols nq m
      + wsCols nq m * wsCols nq m := by
  simp only [sharedSize]; ring

end Mica
