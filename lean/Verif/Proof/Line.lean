import Verif.Spec.Line
import Verif.Proof.Like
import Verif.Props.BlockInv

/-! Helper lemmas about the assembly of the joint covariance matrix. -/

namespace Mica

open Matrix

theorem totalN_append (l l' : List LC) : totalN (l ++ l') = totalN l + totalN l' := by
  induction l with
  | nil => simp [totalN]
  | cons a l ih => simp [totalN, ih, add_assoc]

theorem locate_split (pre : List LC) (a : LC) (post : List LC) (m : ℕ) (hm : m < a.n) :
    locate (pre ++ a :: post) (totalN pre + m) = (pre.length, m) := by
  induction pre with
  | nil => simp [locate, totalN, hm]
  | cons b pre ih =>
    simp only [List.cons_append, locate, totalN, List.length_cons]
    rw [if_neg (by omega), show b.n + totalN pre + m - b.n = totalN pre + m by omega, ih]

theorem locate_exists (l : List LC) (p : ℕ) (hp : p < totalN l) :
    ∃ pre a post m, l = pre ++ a :: post ∧ m < a.n ∧ p = totalN pre + m := by
  induction l generalizing p with
  | nil => simp [totalN] at hp
  | cons b l ih =>
    rcases Nat.lt_or_ge p b.n with h | h
    · exact ⟨[], b, l, p, rfl, h, by simp [totalN]⟩
    · obtain ⟨pre, a, post, m, h1, h2, h3⟩ := ih (p - b.n) (by simp [totalN] at hp; omega)
      exact ⟨b :: pre, a, post, m, by rw [h1]; rfl, h2, by simp [totalN]; omega⟩

theorem concat_split (g : LC → ℕ → ℝ) (pre : List LC) (a : LC) (post : List LC) (m : ℕ) (hm : m < a.n) :
    concat g (pre ++ a :: post) (totalN pre + m) = g a m := by
  induction pre with
  | nil => simp [concat, totalN, hm]
  | cons b pre ih =>
    simp only [List.cons_append, concat, totalN]
    rw [if_neg (by omega), show b.n + totalN pre + m - b.n = totalN pre + m by omega, ih]

theorem getD_split (pre : List LC) (a : LC) (post : List LC) (z : LC) :
    (pre ++ a :: post).getD pre.length z = a := by
  simp [List.getD]

/-! ### Membership in the lists of writes -/

theorem mem_lcRow (S : ℝ → ℝ → ℕ → ℝ) (nall i : ℕ) (t1 : ℝ) (l : List LC) (j np : ℕ) (w : ℕ × ℝ) :
    w ∈ lcRow S nall i t1 l j np ↔ ∃ pre a post, l = pre ++ a :: post ∧ ∃ m < a.n,
      w ∈ both nall i (np + totalN pre + m) (S t1 (a.t m) (j + pre.length)) := by
  induction l generalizing j np with
  | nil => simp [lcRow]
  | cons a l ih =>
    simp only [lcRow, List.mem_append, List.mem_flatMap, List.mem_range, ih]
    constructor
    · rintro (⟨m, hm, hw⟩ | ⟨pre, b, post, rfl, m, hm, hw⟩)
      · exact ⟨[], a, l, rfl, m, hm, by simpa [totalN] using hw⟩
      · refine ⟨a :: pre, b, post, rfl, m, hm, ?_⟩
        simpa [totalN, add_assoc, add_comm, add_left_comm] using hw
    · rintro ⟨pre, b, post, h, m, hm, hw⟩
      rcases pre with _ | ⟨c, pre⟩
      · simp only [List.nil_append, List.cons.injEq] at h
        obtain ⟨rfl, rfl⟩ := h
        left
        exact ⟨m, hm, by simpa [totalN] using hw⟩
      · simp only [List.cons_append, List.cons.injEq] at h
        obtain ⟨rfl, rfl⟩ := h
        right
        refine ⟨pre, b, post, rfl, m, hm, ?_⟩
        simpa [totalN, add_assoc, add_comm, add_left_comm] using hw

theorem mem_lcWritesArr (S : ℝ → ℝ → ℕ → ℝ) (nall : ℕ) (con : LC) (l : List LC) (j np : ℕ) (w : ℕ × ℝ) :
    w ∈ lcWritesArr S nall con l j np ↔ ∃ i < con.n, ∃ pre a post, l = pre ++ a :: post ∧ ∃ m < a.n,
      w ∈ both nall i (np + totalN pre + m) (S (con.t i) (a.t m) (j + pre.length)) := by
  induction l generalizing j np with
  | nil => simp [lcWritesArr]
  | cons a l ih =>
    simp only [lcWritesArr, List.mem_append, List.mem_flatMap, List.mem_range, ih]
    constructor
    · rintro (⟨i, hi, m, hm, hw⟩ | ⟨i, hi, pre, b, post, rfl, m, hm, hw⟩)
      · rw [addr_div hm, addr_mod hm] at hw
        exact ⟨i, hi, [], a, l, rfl, m, hm, by simpa [totalN] using hw⟩
      · refine ⟨i, hi, a :: pre, b, post, rfl, m, hm, ?_⟩
        simpa [totalN, add_assoc, add_comm, add_left_comm] using hw
    · rintro ⟨i, hi, pre, b, post, h, m, hm, hw⟩
      rcases pre with _ | ⟨c, pre⟩
      · simp only [List.nil_append, List.cons.injEq] at h
        obtain ⟨rfl, rfl⟩ := h
        left
        refine ⟨i, hi, m, hm, ?_⟩
        rw [addr_div hm, addr_mod hm]
        simpa [totalN] using hw
      · simp only [List.cons_append, List.cons.injEq] at h
        obtain ⟨rfl, rfl⟩ := h
        right
        refine ⟨i, hi, pre, b, post, rfl, m, hm, ?_⟩
        simpa [totalN, add_assoc, add_comm, add_left_comm] using hw

theorem mem_llRow (S : ℝ → ℝ → ℕ → ℕ → ℝ) (nall r : ℕ) (t1 : ℝ) (j : ℕ) (l : List LC) (k np : ℕ) (w : ℕ × ℝ) :
    w ∈ llRow S nall r t1 j l k np ↔ ∃ pre a post, l = pre ++ a :: post ∧ ∃ m < a.n,
      w ∈ both nall r (np + totalN pre + m) (S t1 (a.t m) j (k + pre.length)) := by
  induction l generalizing k np with
  | nil => simp [llRow]
  | cons a l ih =>
    simp only [llRow, List.mem_append, List.mem_flatMap, List.mem_range, ih]
    constructor
    · rintro (⟨m, hm, hw⟩ | ⟨pre, b, post, rfl, m, hm, hw⟩)
      · exact ⟨[], a, l, rfl, m, hm, by simpa [totalN] using hw⟩
      · refine ⟨a :: pre, b, post, rfl, m, hm, ?_⟩
        simpa [totalN, add_assoc, add_comm, add_left_comm] using hw
    · rintro ⟨pre, b, post, h, m, hm, hw⟩
      rcases pre with _ | ⟨c, pre⟩
      · simp only [List.nil_append, List.cons.injEq] at h
        obtain ⟨rfl, rfl⟩ := h
        left
        exact ⟨m, hm, by simpa [totalN] using hw⟩
      · simp only [List.cons_append, List.cons.injEq] at h
        obtain ⟨rfl, rfl⟩ := h
        right
        refine ⟨pre, b, post, rfl, m, hm, ?_⟩
        simpa [totalN, add_assoc, add_comm, add_left_comm] using hw

theorem mem_llRowArr (S : ℝ → ℝ → ℕ → ℕ → ℝ) (nall np0 : ℕ) (a0 : LC) (j : ℕ) (l : List LC) (k np : ℕ)
    (w : ℕ × ℝ) :
    w ∈ llRowArr S nall np0 a0 j l k np ↔ ∃ i < a0.n, ∃ pre a post, l = pre ++ a :: post ∧ ∃ m < a.n,
      w ∈ both nall (np0 + i) (np + totalN pre + m) (S (a0.t i) (a.t m) j (k + pre.length)) := by
  induction l generalizing k np with
  | nil => simp [llRowArr]
  | cons a l ih =>
    simp only [llRowArr, List.mem_append, List.mem_flatMap, List.mem_range, ih]
    constructor
    · rintro (⟨i, hi, m, hm, hw⟩ | ⟨i, hi, pre, b, post, rfl, m, hm, hw⟩)
      · rw [addr_div hm, addr_mod hm] at hw
        exact ⟨i, hi, [], a, l, rfl, m, hm, by simpa [totalN] using hw⟩
      · refine ⟨i, hi, a :: pre, b, post, rfl, m, hm, ?_⟩
        simpa [totalN, add_assoc, add_comm, add_left_comm] using hw
    · rintro ⟨i, hi, pre, b, post, h, m, hm, hw⟩
      rcases pre with _ | ⟨c, pre⟩
      · simp only [List.nil_append, List.cons.injEq] at h
        obtain ⟨rfl, rfl⟩ := h
        left
        refine ⟨i, hi, m, hm, ?_⟩
        rw [addr_div hm, addr_mod hm]
        simpa [totalN] using hw
      · simp only [List.cons_append, List.cons.injEq] at h
        obtain ⟨rfl, rfl⟩ := h
        right
        refine ⟨i, hi, pre, b, post, rfl, m, hm, ?_⟩
        simpa [totalN, add_assoc, add_comm, add_left_comm] using hw

/-- The writes belonging to line `a` (number `j`, first index `np`) and the later lines `post`. -/
def LLPart (K : Kernels) (sigma : ℝ) (pm : ℕ → ℝ) (idx : ℕ → ℕ) (nall : ℕ) (a : LC) (post : List LC)
    (j np : ℕ) (w : ℕ × ℝ) : Prop :=
  ∃ i < a.n, (∃ m < i, w ∈ both nall (np + i) (np + m) (K.Sll (a.t i) (a.t m) j)) ∨
    w = ((np + i) * nall + (np + i), K.Sll (a.t i) (a.t i) j +
      (a.fe i * a.fe i + pmSyserr pm (idx j) a.em * pmSyserr pm (idx j) a.em) / sigma / sigma) ∨
    ∃ pre b post', post = pre ++ b :: post' ∧ ∃ m < b.n,
      w ∈ both nall (np + i) (np + a.n + totalN pre + m) (K.Sll2 (a.t i) (b.t m) j (j + 1 + pre.length))

theorem mem_llWrites (K : Kernels) (sigma : ℝ) (pm : ℕ → ℝ) (idx : ℕ → ℕ) (nall : ℕ) (l : List LC) (j np : ℕ)
    (w : ℕ × ℝ) :
    w ∈ llWrites K sigma pm idx nall l j np ↔ ∃ pre a post, l = pre ++ a :: post ∧
      LLPart K sigma pm idx nall a post (j + pre.length) (np + totalN pre) w := by
  induction l generalizing j np with
  | nil => simp [llWrites]
  | cons a l ih =>
    simp only [llWrites, List.mem_append, List.mem_flatMap, List.mem_range, ih, mem_llRow,
      List.mem_singleton]
    constructor
    · rintro (⟨i, hi, h⟩ | ⟨pre, b, post, rfl, h⟩)
      · refine ⟨[], a, l, rfl, i, hi, ?_⟩
        simpa [totalN, or_assoc] using h
      · refine ⟨a :: pre, b, post, rfl, ?_⟩
        simpa [totalN, add_assoc, add_comm, add_left_comm] using h
    · rintro ⟨pre, b, post, h, hp⟩
      rcases pre with _ | ⟨c, pre⟩
      · simp only [List.nil_append, List.cons.injEq] at h
        obtain ⟨rfl, rfl⟩ := h
        left
        obtain ⟨i, hi, h⟩ := hp
        refine ⟨i, hi, ?_⟩
        simpa [totalN, or_assoc] using h
      · simp only [List.cons_append, List.cons.injEq] at h
        obtain ⟨rfl, rfl⟩ := h
        right
        refine ⟨pre, b, post, rfl, ?_⟩
        simpa [totalN, add_assoc, add_comm, add_left_comm] using hp

theorem mem_llWritesArr (K : Kernels) (sigma : ℝ) (pm : ℕ → ℝ) (idx : ℕ → ℕ) (nall : ℕ) (l : List LC) (j np : ℕ)
    (w : ℕ × ℝ) :
    w ∈ llWritesArr K sigma pm idx nall l j np ↔ ∃ pre a post, l = pre ++ a :: post ∧
      LLPart K sigma pm idx nall a post (j + pre.length) (np + totalN pre) w := by
  induction l generalizing j np with
  | nil => simp [llWritesArr]
  | cons a l ih =>
    simp only [llWritesArr, List.mem_append, List.mem_flatMap, List.mem_range, ih, mem_llRowArr,
      List.mem_singleton]
    constructor
    · rintro ((⟨i, hi, h⟩ | ⟨i, hi, h⟩) | ⟨pre, b, post, rfl, h⟩)
      · refine ⟨[], a, l, rfl, i, hi, ?_⟩
        rcases h with ⟨m, hm, hw⟩ | hw
        · rw [addr_div (by omega : m < a.n), addr_mod (by omega : m < a.n)] at hw
          exact Or.inl ⟨m, hm, by simpa [totalN] using hw⟩
        · rw [addr_div hi, addr_mod hi] at hw
          exact Or.inr (Or.inl (by simpa [totalN] using hw))
      · refine ⟨[], a, l, rfl, i, hi, ?_⟩
        exact Or.inr (Or.inr (by simpa [totalN] using h))
      · refine ⟨a :: pre, b, post, rfl, ?_⟩
        simpa [totalN, add_assoc, add_comm, add_left_comm] using h
    · rintro ⟨pre, b, post, h, hp⟩
      rcases pre with _ | ⟨c, pre⟩
      · simp only [List.nil_append, List.cons.injEq] at h
        obtain ⟨rfl, rfl⟩ := h
        left
        obtain ⟨i, hi, h⟩ := hp
        rcases h with ⟨m, hm, hw⟩ | hw | hw
        · left
          refine ⟨i, hi, Or.inl ⟨m, hm, ?_⟩⟩
          rw [addr_div (by omega : m < a.n), addr_mod (by omega : m < a.n)]
          simpa [totalN] using hw
        · left
          refine ⟨i, hi, Or.inr ?_⟩
          rw [addr_div hi, addr_mod hi]
          simpa [totalN] using hw
        · right
          exact ⟨i, hi, by simpa [totalN] using hw⟩
      · simp only [List.cons_append, List.cons.injEq] at h
        obtain ⟨rfl, rfl⟩ := h
        right
        refine ⟨pre, b, post, rfl, ?_⟩
        simpa [totalN, add_assoc, add_comm, add_left_comm] using hp

/-- Both functions perform the same set of writes. -/
theorem lineWrites_mem_iff (K : Kernels) (d : DSet) (pm : ℕ → ℝ) (idxc : ℕ) (idxl : ℕ → ℕ) (w : ℕ × ℝ) :
    w ∈ lineWritesArr K d pm idxc idxl ↔ w ∈ lineWrites K d pm idxc idxl := by
  simp only [lineWritesArr, lineWrites, List.mem_append, mem_lcWritesArr, mem_llWritesArr, mem_llWrites,
    lcWrites, List.mem_flatMap, List.mem_range, mem_lcRow]

/-! ### Values and coverage -/

theorem mem_both {nall r c : ℕ} {v : ℝ} {w : ℕ × ℝ} :
    w ∈ both nall r c v ↔ w = (c * nall + r, v) ∨ w = (r * nall + c, v) := by
  simp [both]

variable (K : Kernels) (d : DSet) (pm : ℕ → ℝ) (idxc : ℕ) (idxl : ℕ → ℕ)

/-- The intended content of address `a`. -/
noncomputable def addrVal (a : ℕ) : ℝ :=
  covEntry K d pm idxc idxl (locate d.series (a / d.nall)) (locate d.series (a % d.nall))

theorem covEntry_con_line {i m s : ℕ} :
    covEntry K d pm idxc idxl (0, i) (s + 1, m) = K.Slc ((d.ser 0).t i) ((d.ser (s + 1)).t m) s := by
  simp [covEntry, sigCov]

theorem covEntry_line_con {i m s : ℕ} :
    covEntry K d pm idxc idxl (s + 1, m) (0, i) = K.Slc ((d.ser 0).t i) ((d.ser (s + 1)).t m) s := by
  simp [covEntry, sigCov]

theorem addrVal_eq {p q : ℕ} {x y : ℕ × ℕ} (hq : q < d.nall) (hx : locate d.series p = x)
    (hy : locate d.series q = y) : addrVal K d pm idxc idxl (p * d.nall + q) = covEntry K d pm idxc idxl x y := by
  rw [addrVal, addr_div hq, addr_mod hq, hx, hy]

theorem locate_con {i : ℕ} (hi : i < d.con.n) : locate d.series i = (0, i) := by
  simp [DSet.series, locate, hi]

theorem locate_line {pre : List LC} {a : LC} {post : List LC} (h : d.line = pre ++ a :: post) {m : ℕ}
    (hm : m < a.n) : locate d.series (d.con.n + totalN pre + m) = (pre.length + 1, m) ∧
      d.ser (pre.length + 1) = a ∧ d.con.n + totalN pre + m < d.nall := by
  have e : d.series = (d.con :: pre) ++ a :: post := by simp [DSet.series, h]
  have e2 : d.con.n + totalN pre + m = totalN (d.con :: pre) + m := by simp [totalN]
  refine ⟨?_, ?_, ?_⟩
  · rw [e, e2, locate_split _ _ _ _ hm]; simp
  · rw [DSet.ser, e]
    exact getD_split (d.con :: pre) a post _
  · rw [DSet.nall, e, totalN_append, e2]
    simp only [totalN]; omega

theorem con_lt_nall {i : ℕ} (hi : i < d.con.n) : i < d.nall := by
  simp only [DSet.nall, DSet.series, totalN]; omega

theorem noise_div (x y s : ℝ) : (x * x + y * y) / s / s = (x ^ 2 + y ^ 2) / s ^ 2 := by
  rw [div_div, sq, sq, sq]

/-- Every write stores the intended value at its address. -/
theorem lineWrites_val (w : ℕ × ℝ) (hw : w ∈ lineWrites K d pm idxc idxl) :
    w.2 = addrVal K d pm idxc idxl w.1 ∧ w.1 < d.nall * d.nall := by
  have hlt : ∀ {p q : ℕ}, p < d.nall → q < d.nall → p * d.nall + q < d.nall * d.nall := by
    intro p q hp hq
    calc p * d.nall + q < p * d.nall + d.nall := by omega
      _ = (p + 1) * d.nall := by ring
      _ ≤ d.nall * d.nall := Nat.mul_le_mul_right _ hp
  simp only [lineWrites, List.mem_append, mem_llWrites, lcWrites, ccWrites, List.mem_flatMap,
    List.mem_range, mem_lcRow, List.mem_singleton, mem_both] at hw
  have hser0 : d.ser 0 = d.con := rfl
  rcases hw with (⟨i, hi, hw⟩ | ⟨i, hi, pre, a, post, hl, m, hm, hw⟩) | ⟨pre, a, post, hl, hw⟩
  · rcases hw with ⟨j, hj, hw⟩ | rfl
    · have hj' : j < d.con.n := by omega
      rcases hw with rfl | rfl
      · refine ⟨?_, hlt (con_lt_nall d hj') (con_lt_nall d hi)⟩
        rw [addrVal_eq K d pm idxc idxl (con_lt_nall d hi) (locate_con d hj') (locate_con d hi)]
        simp [covEntry, sigCov, hser0, show j ≠ i by omega, abs_sub_comm]
      · refine ⟨?_, hlt (con_lt_nall d hi) (con_lt_nall d hj')⟩
        rw [addrVal_eq K d pm idxc idxl (con_lt_nall d hj') (locate_con d hi) (locate_con d hj')]
        simp [covEntry, sigCov, hser0, show i ≠ j by omega]
    · refine ⟨?_, hlt (con_lt_nall d hi) (con_lt_nall d hi)⟩
      rw [addrVal_eq K d pm idxc idxl (con_lt_nall d hi) (locate_con d hi) (locate_con d hi)]
      simp [covEntry, sigCov, noiseVar, hser0, noise_div]
  · obtain ⟨l1, l2, l3⟩ := locate_line d hl hm
    rw [Nat.zero_add] at hw
    rcases hw with rfl | rfl
    · refine ⟨?_, hlt l3 (con_lt_nall d hi)⟩
      rw [addrVal_eq K d pm idxc idxl (con_lt_nall d hi) l1 (locate_con d hi), covEntry_line_con, l2]
      rfl
    · refine ⟨?_, hlt (con_lt_nall d hi) l3⟩
      rw [addrVal_eq K d pm idxc idxl l3 (locate_con d hi) l1, covEntry_con_line, l2]
      rfl
  · obtain ⟨i, hi, hw⟩ := hw
    obtain ⟨l1, l2, l3⟩ := locate_line d hl hi
    rw [Nat.zero_add] at hw
    rcases hw with ⟨m, hm, hw⟩ | rfl | ⟨pre', b, post', hl', m, hm, hw⟩
    · obtain ⟨k1, k2, k3⟩ := locate_line d hl (show m < a.n by omega)
      rw [mem_both] at hw
      rcases hw with rfl | rfl
      · refine ⟨?_, hlt k3 l3⟩
        rw [addrVal_eq K d pm idxc idxl l3 k1 l1]
        simp [covEntry, sigCov, l2, show m ≠ i by omega, show ¬ i ≤ m by omega]
      · refine ⟨?_, hlt l3 k3⟩
        rw [addrVal_eq K d pm idxc idxl k3 l1 k1]
        simp [covEntry, sigCov, l2, show i ≠ m by omega, show m ≤ i by omega]
    · refine ⟨?_, hlt l3 l3⟩
      rw [addrVal_eq K d pm idxc idxl l3 l1 l1]
      simp [covEntry, sigCov, noiseVar, l2, noise_div]
    · have hl2 : d.line = (pre ++ a :: pre') ++ b :: post' := by rw [hl, hl']; simp
      obtain ⟨k1, k2, k3⟩ := locate_line d hl2 hm
      have e1 : d.con.n + totalN (pre ++ a :: pre') + m = d.con.n + totalN pre + a.n + totalN pre' + m := by
        rw [totalN_append]; simp only [totalN]; omega
      have e2 : (pre ++ a :: pre').length = pre.length + 1 + pre'.length := by
        simp; omega
      rw [e1, e2] at k1
      rw [e2] at k2
      rw [e1] at k3
      rw [mem_both] at hw
      have hne : pre.length + 1 + pre'.length ≠ pre.length := by omega
      have hlt' : ¬ pre.length + 1 + pre'.length < pre.length := by omega
      have hlt'' : pre.length < pre.length + 1 + pre'.length := by omega
      have hxy : ((pre.length + 1 + pre'.length + 1, m) : ℕ × ℕ) ≠ (pre.length + 1, i) := by
        intro h; rw [Prod.mk.injEq] at h; omega
      rcases hw with rfl | rfl
      · refine ⟨?_, hlt k3 l3⟩
        rw [addrVal_eq K d pm idxc idxl l3 k1 l1]
        simp only [covEntry, sigCov, if_neg hne, if_neg hlt', if_neg hxy, l2, k2, add_zero]
      · refine ⟨?_, hlt l3 k3⟩
        rw [addrVal_eq K d pm idxc idxl k3 l1 k1]
        simp only [covEntry, sigCov, if_neg hne.symm, if_pos hlt'', if_neg hxy.symm, l2, k2, add_zero]

/-- Every address is written. -/
theorem lineWrites_cover (p q : ℕ) (hp : p < d.nall) (hq : q < d.nall) :
    ∃ w ∈ lineWrites K d pm idxc idxl, w.1 = p * d.nall + q := by
  have hloc : ∀ p < d.nall, p < d.con.n ∨ ∃ pre a post m, d.line = pre ++ a :: post ∧ m < a.n ∧
      p = d.con.n + totalN pre + m := by
    intro p hp
    rcases Nat.lt_or_ge p d.con.n with h | h
    · exact Or.inl h
    · right
      obtain ⟨pre, a, post, m, h1, h2, h3⟩ := locate_exists d.line (p - d.con.n) (by
        simp only [DSet.nall, DSet.series, totalN] at hp; omega)
      exact ⟨pre, a, post, m, h1, h2, by omega⟩
  simp only [lineWrites, List.mem_append, mem_llWrites, lcWrites, ccWrites, List.mem_flatMap,
    List.mem_range, mem_lcRow, List.mem_singleton, mem_both]
  rcases hloc p hp with h1 | ⟨pre, a, post, m, h1, h2, h3⟩ <;>
    rcases hloc q hq with k1 | ⟨pre', a', post', m', k1, k2, k3⟩
  · rcases Nat.lt_trichotomy p q with h | rfl | h
    · exact ⟨_, Or.inl (Or.inl ⟨q, k1, Or.inl ⟨p, h, Or.inl rfl⟩⟩), rfl⟩
    · exact ⟨_, Or.inl (Or.inl ⟨p, k1, Or.inr rfl⟩), rfl⟩
    · exact ⟨_, Or.inl (Or.inl ⟨p, h1, Or.inl ⟨q, h, Or.inr rfl⟩⟩), rfl⟩
  · exact ⟨_, Or.inl (Or.inr ⟨p, h1, pre', a', post', k1, m', k2, Or.inr rfl⟩), by rw [k3]⟩
  · exact ⟨_, Or.inl (Or.inr ⟨q, k1, pre, a, post, h1, m, h2, Or.inl rfl⟩), by rw [h3]⟩
  · have hcmp : (pre = pre' ∧ a = a') ∨ (∃ mid, post = mid ++ a' :: post' ∧ pre' = pre ++ a :: mid) ∨
        ∃ mid, post' = mid ++ a :: post ∧ pre = pre' ++ a' :: mid := by
      have e := h1.symm.trans k1
      rw [List.append_eq_append_iff] at e
      rcases e with ⟨as, e1, e2⟩ | ⟨bs, e1, e2⟩
      · rcases as with _ | ⟨x, as⟩
        · simp at e1 e2; exact Or.inl ⟨e1.symm, e2.1⟩
        · simp only [List.cons_append, List.cons.injEq] at e2
          obtain ⟨rfl, e2⟩ := e2
          exact Or.inr (Or.inl ⟨as, e2, e1⟩)
      · rcases bs with _ | ⟨x, bs⟩
        · simp at e1 e2; exact Or.inl ⟨e1, e2.1.symm⟩
        · simp only [List.cons_append, List.cons.injEq] at e2
          obtain ⟨rfl, e2⟩ := e2
          exact Or.inr (Or.inr ⟨bs, e2, e1⟩)
    rcases hcmp with ⟨rfl, rfl⟩ | ⟨mid, hm1, hm2⟩ | ⟨mid, hm1, hm2⟩
    · rcases Nat.lt_trichotomy m m' with h | rfl | h
      · refine ⟨_, Or.inr ⟨pre, a, post, h1, m', k2, Or.inl ⟨m, h, mem_both.2 (Or.inl rfl)⟩⟩, ?_⟩
        simp only [h3, k3]
      · exact ⟨_, Or.inr ⟨pre, a, post, h1, m, k2, Or.inr (Or.inl rfl)⟩, by simp only [h3, k3]⟩
      · refine ⟨_, Or.inr ⟨pre, a, post, h1, m, h2, Or.inl ⟨m', h, mem_both.2 (Or.inr rfl)⟩⟩, ?_⟩
        simp only [h3, k3]
    · refine ⟨_, Or.inr ⟨pre, a, post, h1, m, h2, Or.inr (Or.inr ⟨mid, a', post', hm1, m', k2,
        mem_both.2 (Or.inr rfl)⟩)⟩, ?_⟩
      rw [hm2, totalN_append] at k3
      simp only [totalN] at k3
      simp only [h3, k3]; ring
    · refine ⟨_, Or.inr ⟨pre', a', post', k1, m', k2, Or.inr (Or.inr ⟨mid, a, post, hm1, m, h2,
        mem_both.2 (Or.inl rfl)⟩)⟩, ?_⟩
      rw [hm2, totalN_append] at h3
      simp only [totalN] at h3
      simp only [h3, k3]; ring

/-! ### Number of writes -/

theorem length_tri (f : ℕ → List (ℕ × ℝ)) (g : ℕ → ℕ → List (ℕ × ℝ)) (c n : ℕ)
    (hf : ∀ i, (f i).length = c) (hg : ∀ i m, (g i m).length = 2) :
    ((List.range n).flatMap fun i => ((List.range i).flatMap (g i)) ++ f i).length = n * (n - 1) + n * c := by
  induction n with
  | zero => simp
  | succ n ih =>
    rw [List.range_succ, List.flatMap_append, List.length_append, ih]
    have : ((List.range n).flatMap (g n)).length = 2 * n := by
      rw [List.length_flatMap]
      simp [hg, List.map_const', List.sum_replicate, mul_comm]
    simp only [List.flatMap_cons, List.flatMap_nil, List.append_nil, List.length_append, this, hf]
    rcases n with _ | n
    · simp
    · simp only [Nat.add_sub_cancel]; ring

theorem length_lcRow (S : ℝ → ℝ → ℕ → ℝ) (nall i : ℕ) (t1 : ℝ) (l : List LC) (j np : ℕ) :
    (lcRow S nall i t1 l j np).length = 2 * totalN l := by
  induction l generalizing j np with
  | nil => rfl
  | cons a l ih =>
    simp only [lcRow, List.length_append, ih, List.length_flatMap, both, List.length_cons, List.length_nil,
      List.map_const', List.sum_replicate, List.length_range, smul_eq_mul, totalN]
    ring

theorem length_llRow (S : ℝ → ℝ → ℕ → ℕ → ℝ) (nall i : ℕ) (t1 : ℝ) (j : ℕ) (l : List LC) (k np : ℕ) :
    (llRow S nall i t1 j l k np).length = 2 * totalN l := by
  induction l generalizing k np with
  | nil => rfl
  | cons a l ih =>
    simp only [llRow, List.length_append, ih, List.length_flatMap, both, List.length_cons, List.length_nil,
      List.map_const', List.sum_replicate, List.length_range, smul_eq_mul, totalN]
    ring

theorem sq_sub_add (n : ℕ) : n * (n - 1) + n = n * n := by
  rcases n with _ | n
  · rfl
  · simp only [Nat.add_sub_cancel]; ring

theorem length_llWrites (sigma : ℝ) (nall : ℕ) (l : List LC) (j np : ℕ) :
    (llWrites K sigma pm idxl nall l j np).length = totalN l * totalN l := by
  induction l generalizing j np with
  | nil => rfl
  | cons a l ih =>
    simp only [llWrites, List.length_append, ih, totalN]
    simp only [List.append_assoc]
    rw [length_tri _ _ (1 + 2 * totalN l) a.n
      (fun i => by simp [length_llRow]; ring) (fun i m => by simp [both])]
    have := sq_sub_add a.n
    nlinarith

theorem length_lineWrites : (lineWrites K d pm idxc idxl).length = d.nall * d.nall := by
  have h1 : (ccWrites (pmSigma pm idxc) (pmTau pm idxc) (pmSyserr pm idxc d.con.em) d.nall d.con).length =
      d.con.n * d.con.n := by
    rw [ccWrites, length_tri _ _ 1 d.con.n (fun i => by simp) (fun i m => by simp [both]), mul_one,
      sq_sub_add]
  have h2 : (lcWrites K.Slc d.nall d).length = d.con.n * (2 * totalN d.line) := by
    simp [lcWrites, List.length_flatMap, length_lcRow, List.map_const', List.sum_replicate]
  rw [lineWrites, List.length_append, List.length_append, h1, h2, length_llWrites]
  simp only [DSet.nall, DSet.series, totalN]
  ring

/-- The addresses written are exactly `0, ..., nall^2 - 1`, each once. -/
theorem lineWrites_perm :
    ((lineWrites K d pm idxc idxl).map Prod.fst).Perm (List.range (d.nall * d.nall)) := by
  have hsub : List.range (d.nall * d.nall) ⊆ (lineWrites K d pm idxc idxl).map Prod.fst := by
    intro a ha
    rw [List.mem_range] at ha
    have hn : 0 < d.nall := by
      rcases Nat.eq_zero_or_pos d.nall with h | h
      · rw [h] at ha; omega
      · exact h
    obtain ⟨w, hw, he⟩ := lineWrites_cover K d pm idxc idxl (a / d.nall) (a % d.nall)
      (Nat.div_lt_of_lt_mul ha) (Nat.mod_lt _ hn)
    rw [List.mem_map]
    refine ⟨w, hw, ?_⟩
    rw [he, mul_comm]; exact Nat.div_add_mod a d.nall
  have hsp : (List.range (d.nall * d.nall)).Subperm ((lineWrites K d pm idxc idxl).map Prod.fst) :=
    List.subperm_of_subset List.nodup_range hsub
  exact (hsp.perm_of_length_le (by rw [List.length_map, length_lineWrites, List.length_range])).symm

/-! ### The matrix after the fill -/

theorem runWrites_lineArr (mem : ℕ → ℝ) {p q : ℕ} (hp : p < d.nall) (hq : q < d.nall) :
    runWrites (lineWritesArr K d pm idxc idxl) mem (p * d.nall + q) =
      covEntry K d pm idxc idxl (locate d.series p) (locate d.series q) := by
  rw [runWrites_eq _ _ (addrVal K d pm idxc idxl)
    (fun w hw => (lineWrites_val K d pm idxc idxl w ((lineWrites_mem_iff K d pm idxc idxl w).1 hw)).1)]
  · exact addrVal_eq K d pm idxc idxl hq rfl rfl
  · obtain ⟨w, hw, e⟩ := lineWrites_cover K d pm idxc idxl p q hp hq
    exact ⟨w, (lineWrites_mem_iff K d pm idxc idxl w).2 hw, e⟩

theorem runWrites_line (mem : ℕ → ℝ) {p q : ℕ} (hp : p < d.nall) (hq : q < d.nall) :
    runWrites (lineWrites K d pm idxc idxl) mem (p * d.nall + q) =
      covEntry K d pm idxc idxl (locate d.series p) (locate d.series q) := by
  rw [runWrites_eq _ _ (addrVal K d pm idxc idxl)
    (fun w hw => (lineWrites_val K d pm idxc idxl w hw).1)]
  · exact addrVal_eq K d pm idxc idxl hq rfl rfl
  · exact lineWrites_cover K d pm idxc idxl p q hp hq

/-- The intended matrix, in units of `sigma^2`. -/
noncomputable def DSet.cov : Matrix (Fin d.nall) (Fin d.nall) ℝ :=
  Matrix.of fun p q => covEntry K d pm idxc idxl (locate d.series p) (locate d.series q)

theorem PCarr_eq (mem : ℕ → ℝ) : d.PCarr K pm idxc idxl mem = d.cov K pm idxc idxl := by
  ext p q
  exact runWrites_lineArr K d pm idxc idxl mem p.2 q.2

/-! ### Trend matrix of all light curves -/

theorem trendRow_split (nq s0 : ℕ) (pre : List LC) (a : LC) (post : List LC) (m c : ℕ) (hm : m < a.n) :
    trendRow nq (pre ++ a :: post) s0 (totalN pre + m) c =
      if (s0 + pre.length) * nq ≤ c ∧ c < (s0 + pre.length) * nq + nq then
        a.t m ^ (c - (s0 + pre.length) * nq) else 0 := by
  induction pre generalizing s0 with
  | nil =>
    simp only [List.nil_append, trendRow, totalN, zero_add, if_pos hm, List.length_nil, add_zero]
    congr 1
    split
    · rename_i h; rw [h, pow_zero]
    · rfl
  | cons b pre ih =>
    simp only [List.cons_append, trendRow, totalN, List.length_cons]
    rw [if_neg (by omega), show b.n + totalN pre + m - b.n = totalN pre + m by omega, ih,
      show s0 + 1 + pre.length = s0 + (pre.length + 1) by ring]

theorem sum_block (N nq o : ℕ) (ho : o + nq ≤ N) (g : ℕ → ℝ) (x : Fin N → ℝ) :
    ∑ c : Fin N, (if o ≤ (c : ℕ) ∧ (c : ℕ) < o + nq then g (c - o) else 0) * x c =
      ∑ j : Fin nq, g j * x ⟨o + j, by omega⟩ := by
  let x' : ℕ → ℝ := fun c => if h : c < N then x ⟨c, h⟩ else 0
  have h1 : ∑ c : Fin N, (if o ≤ (c : ℕ) ∧ (c : ℕ) < o + nq then g (c - o) else 0) * x c =
      ∑ c ∈ Finset.range N, (if o ≤ c ∧ c < o + nq then g (c - o) * x' c else 0) := by
    rw [← Fin.sum_univ_eq_sum_range (fun c => if o ≤ c ∧ c < o + nq then g (c - o) * x' c else 0)]
    apply Finset.sum_congr rfl
    intro c _
    simp only [x', c.2, dite_true, ite_mul, zero_mul]
  rw [h1, ← Finset.sum_filter]
  have h2 : (Finset.range N).filter (fun c => o ≤ c ∧ c < o + nq) = Finset.Ico o (o + nq) := by
    ext c; simp only [Finset.mem_filter, Finset.mem_range, Finset.mem_Ico]; omega
  rw [h2, Finset.sum_Ico_eq_sum_range, Nat.add_sub_cancel_left,
    ← Fin.sum_univ_eq_sum_range (fun k => g (o + k - o) * x' (o + k))]
  apply Finset.sum_congr rfl
  intro j _
  simp only [x', Nat.add_sub_cancel_left, show o + (j : ℕ) < N by omega, dite_true]

theorem trend_injective (nq : ℕ) (h : ∀ a ∈ d.series, EnoughTimes a nq) :
    Function.Injective (d.trend nq).mulVec := by
  intro x y hxy
  have key : ∀ s (hs : s < 1 + d.line.length), ∀ (j : ℕ) (hj : j < nq) (hb : s * nq + j < nq * (1 + d.line.length)),
      x ⟨s * nq + j, hb⟩ = y ⟨s * nq + j, hb⟩ := by
    intro s hs j hj hb
    have hs' : s < d.series.length := by simp only [DSet.series, List.length_cons]; omega
    obtain ⟨pre, post, hsp, hlen⟩ : ∃ pre post, d.series = pre ++ d.series[s] :: post ∧ pre.length = s :=
      ⟨d.series.take s, d.series.drop (s + 1), by simp, by simp; omega⟩
    set a := d.series[s] with ha
    obtain ⟨e, he⟩ := h a (List.getElem_mem hs')
    have hinj := trendMat_injective a.t a.n nq e he
    have hbd : s * nq + nq ≤ nq * (1 + d.line.length) := by
      calc s * nq + nq = nq * (s + 1) := by ring
        _ ≤ _ := Nat.mul_le_mul_left _ (by omega)
    have hrow : ∀ (z : Fin (nq * (1 + d.line.length)) → ℝ) (m : ℕ) (hm : m < a.n)
        (hp : totalN pre + m < d.nall), (d.trend nq).mulVec z ⟨totalN pre + m, hp⟩ =
        (trendMat a.t a.n nq).mulVec (fun j => z ⟨s * nq + j, by omega⟩) ⟨m, hm⟩ := by
      intro z m hm hp
      simp only [Matrix.mulVec, dotProduct, DSet.trend]
      rw [hsp]
      simp only [trendRow_split _ _ _ _ _ _ _ hm, zero_add, hlen]
      rw [sum_block _ nq (s * nq) hbd (fun k => a.t m ^ k) z]
      apply Finset.sum_congr rfl
      intro k _
      congr 1
      simp only [trendMat]
      split
      · rename_i h; rw [h, pow_zero]
      · rfl
    have heq : (fun j : Fin nq => x ⟨s * nq + j, by omega⟩) = fun j : Fin nq => y ⟨s * nq + j, by omega⟩ := by
      apply hinj
      funext m
      have hp : totalN pre + m < d.nall := by
        rw [DSet.nall, hsp, totalN_append]; simp only [totalN]; have := m.2; omega
      rw [← hrow x m m.2 hp, ← hrow y m m.2 hp, hxy]
    exact congrFun heq ⟨j, hj⟩
  funext c
  have hq : 0 < nq := by
    rcases Nat.eq_zero_or_pos nq with h0 | h0
    · have h2 : nq * (1 + d.line.length) = 0 := by rw [h0, zero_mul]
      have := c.2; omega
    · exact h0
  have hc : (c : ℕ) / nq * nq + (c : ℕ) % nq = c := by
    rw [mul_comm]; exact Nat.div_add_mod _ _
  have := key (c / nq) (Nat.div_lt_of_lt_mul c.2) (c % nq) (Nat.mod_lt _ hq) (by rw [hc]; exact c.2)
  simpa only [hc] using this

/-! ### The fast line likelihood -/

theorem totalN_eq_sum (l : List LC) : totalN l = (l.map LC.n).sum := by
  induction l with
  | nil => rfl
  | cons a l ih => simp [totalN, ih]

theorem semi_iter_cast {N n0 : ℕ} {narr : List ℕ} (hN : N = n0 + narr.sum) (t sigma : ℕ → ℝ) (a c syserr : ℝ)
    (ha : 0 < a) (hc : 0 < c) (hmono : ∀ i, i + 1 < n0 → t i ≤ t (i + 1))
    (hNoise : (∀ i < n0, 0 < sigma i * sigma i + syserr * syserr) ∨ ∀ i, i + 1 < n0 → t i < t (i + 1))
    (M : Matrix (Fin N) (Fin N) ℝ) (hM : M.PosDef)
    (hlead : ∀ (i j : Fin N), (i : ℕ) < n0 → (j : ℕ) < n0 → M i j =
      a * Real.exp (-c * |t i - t j|) + if i = j then sigma i * sigma i + syserr * syserr else 0) :
    (narr ≠ [] → block (semiIter t a c sigma syserr (arrayOf M) n0 narr).2.1 0 N 0 N = M⁻¹) ∧
    (semiIter t a c sigma syserr (arrayOf M) n0 narr).2.2 = Real.log M.det := by
  subst hN
  refine C25_semi_iter_partial n0 narr t sigma a c syserr ha hc hmono hNoise M hM ?_
  intro i j
  rw [hlead _ _ (by simp) (by simp)]
  simp [drwCov, Fin.ext_iff]

theorem cov_lead (i j : Fin d.nall) (hi : (i : ℕ) < d.con.n) (hj : (j : ℕ) < d.con.n) :
    d.cov K pm idxc idxl i j = 1 * Real.exp (-(1 / pmTau pm idxc) * |d.con.t i - d.con.t j|) +
      if i = j then d.con.fe i / pmSigma pm idxc * (d.con.fe i / pmSigma pm idxc) +
        pmSyserr pm idxc d.con.em / pmSigma pm idxc * (pmSyserr pm idxc d.con.em / pmSigma pm idxc) else 0 := by
  have hs := (pmSigma_pos pm idxc).ne'
  simp only [DSet.cov, Matrix.of_apply, locate_con d hi, locate_con d hj, covEntry, sigCov,
    noiseVar, show d.ser 0 = d.con from rfl, Prod.mk.injEq, true_and, Fin.ext_iff, one_mul]
  congr 1
  · congr 1; ring
  · split
    · field_simp
    · rfl

theorem ConOK_scale {d : LC} {syserr s : ℝ} (hs : 0 < s) (h : ConOK d syserr) :
    (∀ i < d.n, 0 < d.fe i / s * (d.fe i / s) + syserr / s * (syserr / s)) ∨
      ∀ i, i + 1 < d.n → d.t i < d.t (i + 1) := by
  refine h.2.imp ?_ id
  intro h i hi
  have e : d.fe i / s * (d.fe i / s) + syserr / s * (syserr / s) =
      (d.fe i * d.fe i + syserr * syserr) / (s * s) := by field_simp
  rw [e]
  exact div_pos (h i hi) (by positivity)

/-- The fast likelihood when the array holds `B⁻¹` after the inversion, with `ld` as log-determinant. -/
theorem lineTerm4_core (nq : ℕ) (PC B : Matrix (Fin d.nall) (Fin d.nall) ℝ) (ld : ℝ)
    (hB : B.PosDef) (hL : Function.Injective (d.trend nq).mulVec)
    (h1 : block (semiIter d.con.t 1 (1 / pmTau pm idxc) (fun i => d.con.fe i / pmSigma pm idxc)
      (pmSyserr pm idxc d.con.em / pmSigma pm idxc) (arrayOf PC) d.con.n (d.line.map LC.n)).2.1 0 d.nall 0 d.nall = B⁻¹)
    (h2 : (semiIter d.con.t 1 (1 / pmTau pm idxc) (fun i => d.con.fe i / pmSigma pm idxc)
      (pmSyserr pm idxc d.con.em / pmSigma pm idxc) (arrayOf PC) d.con.n (d.line.map LC.n)).2.2 = ld) :
    lineTerm4 nq d pm idxc PC = .ok (some (margLL ((pmSigma pm idxc * pmSigma pm idxc) • B) (d.trend nq)
      (fun i => d.fall i) + 1 / 2 * Real.log B.det - 1 / 2 * ld)) := by
  have hs := pmSigma_pos pm idxc
  have hq := trend_posDef hB hL
  have hyq : (B⁻¹ * d.trend nq)ᵀ.mulVec (fun i : Fin d.nall => d.fall i) =
      (d.trend nq)ᵀ.mulVec (B⁻¹.mulVec fun i : Fin d.nall => d.fall i) := by
    rw [Matrix.transpose_mul, inv_symm (posDef_symm hB), Matrix.mulVec_mulVec]
  have hy : ∀ q : Fin (nq * (1 + d.line.length)) → ℝ, (-1 : ℝ) • (d.trend nq).mulVec q +
      (1 : ℝ) • (fun i : Fin d.nall => d.fall i) = (fun i : Fin d.nall => d.fall i) - (d.trend nq).mulVec q := by
    intro q
    rw [neg_smul, one_smul, one_smul]; abel
  have hq' : glsCoef B (d.trend nq) (fun i : Fin d.nall => d.fall i) = ((d.trend nq)ᵀ *
      (B⁻¹ * d.trend nq))⁻¹.mulVec ((d.trend nq)ᵀ.mulVec
      (B⁻¹.mulVec fun i : Fin d.nall => d.fall i)) := rfl
  simp only [lineTerm4, h1, h2, hyq, inverseSymat_eq (posDef_symm hq), lndetSymat_posDef hq, signSymat_posDef hq,
    upperSym_of_symm (posDef_symm hq), hq.det_pos.ne', hy, ← hq']
  rw [if_neg (by simp), if_neg (quad_nonpos hB _ hs), margLL_scale _ hs hB hL]
  congr 2
  ring

theorem lineTerm4_eq (nq : ℕ) (hcon : ConOK d.con (pmSyserr pm idxc d.con.em))
    (hC : (d.cov K pm idxc idxl).PosDef) (hL : Function.Injective (d.trend nq).mulVec) (hne : d.line ≠ []) :
    lineTerm4 nq d pm idxc (d.cov K pm idxc idxl) = .ok (some (margLL
      ((pmSigma pm idxc * pmSigma pm idxc) • d.cov K pm idxc idxl) (d.trend nq) (fun i => d.fall i))) := by
  have hs := pmSigma_pos pm idxc
  obtain ⟨h1, h2⟩ := semi_iter_cast (N := d.nall) (narr := d.line.map LC.n)
    (by rw [← totalN_eq_sum]; rfl) d.con.t (fun i => d.con.fe i / pmSigma pm idxc) 1 (1 / pmTau pm idxc)
    (pmSyserr pm idxc d.con.em / pmSigma pm idxc) one_pos (one_div_pos.2 (pmTau_pos pm idxc)) hcon.1
    (ConOK_scale hs hcon) (d.cov K pm idxc idxl) hC (cov_lead K d pm idxc idxl)
  rw [lineTerm4_core d pm idxc nq _ _ _ hC hL (h1 (by simpa using hne)) h2]
  congr 2
  ring

/-- A data set without lines: the matrix itself is used in place of its inverse. -/
theorem lineTerm4_noLine (nq : ℕ) (hcon : ConOK d.con (pmSyserr pm idxc d.con.em))
    (hC : (d.cov K pm idxc idxl).PosDef) (hL : Function.Injective (d.trend nq).mulVec) (hne : d.line = []) :
    lineTerm4 nq d pm idxc (d.cov K pm idxc idxl) = .ok (some (margLL
      ((pmSigma pm idxc * pmSigma pm idxc) • (d.cov K pm idxc idxl)⁻¹) (d.trend nq) (fun i => d.fall i) -
      Real.log (d.cov K pm idxc idxl).det)) := by
  have hs := pmSigma_pos pm idxc
  obtain ⟨h1, h2⟩ := semi_iter_cast (N := d.nall) (narr := d.line.map LC.n)
    (by rw [← totalN_eq_sum]; rfl) d.con.t (fun i => d.con.fe i / pmSigma pm idxc) 1 (1 / pmTau pm idxc)
    (pmSyserr pm idxc d.con.em / pmSigma pm idxc) one_pos (one_div_pos.2 (pmTau_pos pm idxc)) hcon.1
    (ConOK_scale hs hcon) (d.cov K pm idxc idxl) hC (cov_lead K d pm idxc idxl)
  have hu : IsUnit (d.cov K pm idxc idxl).det := isUnit_iff_ne_zero.2 hC.det_pos.ne'
  rw [lineTerm4_core d pm idxc nq _ _ _ hC.inv hL ?_ h2]
  · congr 2
    rw [Matrix.det_nonsing_inv, Ring.inverse_eq_inv', Real.log_inv]
    ring
  · rw [Matrix.nonsing_inv_nonsing_inv _ hu]
    have e : d.line.map LC.n = [] := by rw [hne]; rfl
    rw [e]
    exact block_arrayOf _

end Mica
