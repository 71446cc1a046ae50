import Mathlib.Data.List.Basic

/-!
# `qsort` as implemented by glibc (`msort_with_tmp`), called with the comparators of cdnest

`qsort` (glibc) on arrays that fit the temporary buffer is a top-down merge sort: split at `n/2`,
sort both halves, and merge taking the left element iff `cmp(left, right) <= 0`.
The comparators of cdnest return only 0 or 1, so they are not an order in the sense of the C
standard; what the program relies on is the behaviour of this algorithm.
-/

namespace Mica

/-- The merge loop of `msort_with_tmp`: take from the left iff `cmp l r <= 0`. -/
def mergeC {α : Type u} (cmp : α → α → Int) : List α → List α → List α
  | [], r => r
  | l, [] => l
  | a :: l, b :: r =>
    if cmp a b ≤ 0 then a :: mergeC cmp l (b :: r) else b :: mergeC cmp (a :: l) r
termination_by l r => l.length + r.length

/-- `msort_with_tmp`: arrays of length at most 1 are left alone, otherwise split at `n/2`. -/
def msortC {α : Type u} (cmp : α → α → Int) (l : List α) : List α :=
  if h : l.length ≤ 1 then l
  else
    have h1 : (l.take (l.length / 2)).length < l.length := by
      simp only [List.length_take]; omega
    have h2 : (l.drop (l.length / 2)).length < l.length := by
      simp only [List.length_drop]; omega
    mergeC cmp (msortC cmp (l.take (l.length / 2))) (msortC cmp (l.drop (l.length / 2)))
termination_by l.length

end Mica
