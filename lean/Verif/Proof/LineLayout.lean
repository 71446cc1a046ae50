import Verif.Model.LineParams
import Mathlib.Tactic.Linarith
import Mathlib.Tactic.Ring
import Mathlib.Data.List.GetD

/-! # Helper lemmas: layout of the line parameters -/

namespace Mica
namespace LineCfg
variable (c : LineCfg)

/-- Number of lines with parameters of their own. -/
def nblocks : ℕ := if c.uniTf = 1 then c.nlMax else c.nl.sum

theorem blk_pos : 0 < c.blk := by unfold blk; omega

theorem foldl_add_mul (b : ℕ) (l : List ℕ) (a : ℕ) :
    l.foldl (fun n l => n + b * l) a = a + b * l.sum := by
  induction l generalizing a with
  | nil => simp
  | cons x l ih => simp only [List.foldl_cons, ih, List.sum_cons]; ring

theorem numLine_eq : c.numLine = c.blk * c.nblocks := by
  unfold numLine nblocks
  split
  · rfl
  · rw [foldl_add_mul]; omega

theorem numLine_div : c.numLine / c.blk = c.nblocks := by
  rw [numLine_eq, Nat.mul_div_cancel_left _ c.blk_pos]

theorem numVar_mod : ∃ m, c.numVar = 3 * m := by
  unfold numVar; split
  · exact ⟨1, rfl⟩
  · exact ⟨_, rfl⟩

theorem idxLoop_get (l : List ℕ) (np i : ℕ) (hi : i < l.length) :
    (c.idxLoop np l).getD i [] = c.idxRow (np + (l.take i).sum) (l.getD i 0) := by
  induction l generalizing np i with
  | nil => simp at hi
  | cons n l ih =>
    cases i with
    | zero => simp [idxLoop]
    | succ i =>
      simp only [idxLoop, List.getD_cons_succ, List.take_succ_cons, List.sum_cons]
      rw [ih _ _ (by simpa using hi), Nat.add_assoc]

theorem idxRows_get (i : ℕ) (hi : i < c.nl.length) :
    c.idxRows.getD i [] =
      (List.range (c.nl.getD i 0)).map fun j =>
        c.blk * ((if c.uniTf = 1 then 0 else (c.nl.take i).sum) + j) + c.numVar := by
  unfold idxRows
  by_cases h : c.uniTf = 1
  · simp [h, hi, List.getD_eq_getElem?_getD]
  · simp only [h, if_false]
    rw [c.idxLoop_get _ _ _ hi]
    simp [idxRow]

/-- The block number of line `j` of data set `i`. -/
def bno (i j : ℕ) : ℕ := (if c.uniTf = 1 then 0 else (c.nl.take i).sum) + j

theorem idxLine_eq (i j : ℕ) (hj : j < c.nl.getD i 0) :
    c.idxLine i j = c.blk * c.bno i j + c.numVar := by
  have hi : i < c.nl.length := by
    by_contra h
    rw [List.getD_eq_default _ _ (by omega)] at hj; omega
  unfold idxLine bno
  rw [c.idxRows_get i hi, List.getD_eq_getElem _ _ (by simpa using hj)]
  simp

theorem take_sum_add_le (l : List ℕ) (i : ℕ) : (l.take i).sum + l.getD i 0 ≤ l.sum := by
  induction l generalizing i with
  | nil => simp
  | cons n l ih =>
    cases i with
    | zero => simp
    | succ i =>
      have := ih i
      simp only [List.take_succ_cons, List.sum_cons, List.getD_cons_succ]; omega

theorem take_sum_mono (l : List ℕ) {i i' : ℕ} (h : i < i') :
    (l.take i).sum + l.getD i 0 ≤ (l.take i').sum := by
  induction l generalizing i i' with
  | nil => simp
  | cons n l ih =>
    cases i' with
    | zero => omega
    | succ i' =>
      cases i with
      | zero => simp
      | succ i =>
        have := ih (i := i) (i' := i') (by omega)
        simp only [List.take_succ_cons, List.sum_cons, List.getD_cons_succ]; omega

theorem foldl_max_ge (l : List ℕ) (a : ℕ) : a ≤ l.foldl max a := by
  induction l generalizing a with
  | nil => simp
  | cons n l ih => exact le_trans (le_max_left a n) (ih _)

theorem getD_le_foldl_max (l : List ℕ) (a i : ℕ) : l.getD i 0 ≤ l.foldl max a := by
  induction l generalizing a i with
  | nil => simp
  | cons n l ih =>
    cases i with
    | zero => exact le_trans (le_max_right a n) (foldl_max_ge l _)
    | succ i => simpa using ih (max a n) i

theorem foldl_max_attained (l : List ℕ) (a : ℕ) :
    l.foldl max a = a ∨ ∃ i, i < l.length ∧ l.getD i 0 = l.foldl max a := by
  induction l generalizing a with
  | nil => left; rfl
  | cons n l ih =>
    rcases ih (max a n) with h | ⟨i, hi, h⟩
    · rw [List.foldl_cons, h]
      rcases le_total n a with h' | h'
      · left; omega
      · right; exact ⟨0, by simp, by simp; omega⟩
    · right; exact ⟨i + 1, by simpa using hi, by simpa using h⟩

theorem bno_lt (i j : ℕ) (hj : j < c.nl.getD i 0) : c.bno i j < c.nblocks := by
  unfold bno nblocks
  split
  · have := getD_le_foldl_max c.nl 0 i
    unfold nlMax; omega
  · have := take_sum_add_le c.nl i; omega

theorem bno_inj {i j i' j' : ℕ} (hj : j < c.nl.getD i 0) (hj' : j' < c.nl.getD i' 0)
    (h : c.bno i j = c.bno i' j') : j = j' ∧ (c.uniTf ≠ 1 → i = i') := by
  unfold bno at h
  by_cases hu : c.uniTf = 1
  · simp [hu] at h; exact ⟨h, fun h' => absurd hu h'⟩
  · simp only [hu, if_false] at h
    rcases lt_trichotomy i i' with hl | rfl | hl
    · have := take_sum_mono c.nl hl; omega
    · exact ⟨by omega, fun _ => rfl⟩
    · have := take_sum_mono c.nl hl; omega

theorem block_surj (l : List ℕ) (b : ℕ) (hb : b < l.sum) :
    ∃ i j, j < l.getD i 0 ∧ (l.take i).sum + j = b := by
  induction l generalizing b with
  | nil => simp at hb
  | cons n l ih =>
    by_cases h : b < n
    · exact ⟨0, b, by simpa using h, by simp⟩
    · obtain ⟨i, j, hj, hs⟩ := ih (b - n) (by simp only [List.sum_cons] at hb; omega)
      exact ⟨i + 1, j, by simpa using hj, by simp only [List.take_succ_cons, List.sum_cons]; omega⟩

theorem bno_surj (b : ℕ) (hb : b < c.nblocks) : ∃ i j, j < c.nl.getD i 0 ∧ c.bno i j = b := by
  unfold nblocks at hb
  unfold bno
  by_cases hu : c.uniTf = 1
  · simp only [hu, if_true] at hb ⊢
    rcases foldl_max_attained c.nl 0 with h | ⟨i, hi, h⟩
    · unfold nlMax at hb; omega
    · exact ⟨i, b, by unfold nlMax at hb; omega, by omega⟩
  · simp only [hu, if_false] at hb ⊢
    exact block_surj _ _ hb

theorem lt_of_getD_lt {l : List ℕ} {i j : ℕ} (hj : j < l.getD i 0) : i < l.length := by
  by_contra h
  rw [List.getD_eq_default _ _ (by omega)] at hj; omega

/-- Decomposition of an address within the line part. -/
theorem block_addr_inj {b b' q q' B : ℕ} (hq : q < B) (hq' : q' < B)
    (h : B * b + q = B * b' + q') : b = b' ∧ q = q' := by
  have h1 : (B * b + q) / B = b := by
    rw [Nat.mul_add_div (by omega), Nat.div_eq_of_lt hq, Nat.add_zero]
  have h2 : (B * b' + q') / B = b' := by
    rw [Nat.mul_add_div (by omega), Nat.div_eq_of_lt hq', Nat.add_zero]
  have hb : b = b' := by rw [← h1, ← h2, h]
  subst hb
  exact ⟨rfl, by omega⟩

theorem addr_lt {b q : ℕ} (hb : b < c.nblocks) (hq : q < c.blk) :
    c.blk * b + c.numVar + q < c.numParams := by
  unfold numParams
  rw [numLine_eq]
  have : c.blk * (b + 1) ≤ c.blk * c.nblocks := Nat.mul_le_mul_left _ hb
  rw [Nat.mul_add] at this
  omega

theorem addr_split {n : ℕ} (h1 : c.numVar ≤ n) (h2 : n < c.numParams) :
    ∃ b q, b < c.nblocks ∧ q < c.blk ∧ n = c.blk * b + c.numVar + q := by
  refine ⟨(n - c.numVar) / c.blk, (n - c.numVar) % c.blk, ?_, Nat.mod_lt _ c.blk_pos, ?_⟩
  · rw [Nat.div_lt_iff_lt_mul c.blk_pos, Nat.mul_comm]
    unfold numParams at h2; rw [numLine_eq] at h2; omega
  · have := Nat.div_add_mod (n - c.numVar) c.blk; omega

end LineCfg
end Mica
