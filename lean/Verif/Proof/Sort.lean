import Verif.Model.Sort
import Mathlib.Data.List.Perm.Basic
import Mathlib.Data.List.Sort

namespace Mica

theorem mergeC_perm {α : Type u} (cmp : α → α → Int) (l r : List α) :
    (mergeC cmp l r).Perm (l ++ r) := by
  fun_induction mergeC cmp l r with
  | case1 r => simp
  | case2 l => simp
  | case3 a l b r h ih => exact ih.cons a
  | case4 a l b r h ih =>
    refine (ih.cons b).trans ?_
    exact (List.perm_middle (a := b) (l₁ := a :: l) (l₂ := r)).symm

theorem mergeC_sorted {α : Type u} (cmp : α → α → Int) (S : α → α → Prop)
    (trans : ∀ a b c, S a b → S b c → S a c)
    (h1 : ∀ a b, cmp a b ≤ 0 → S a b) (h2 : ∀ a b, ¬ cmp a b ≤ 0 → S b a) (l r : List α)
    (hl : l.Pairwise S) (hr : r.Pairwise S) : (mergeC cmp l r).Pairwise S := by
  fun_induction mergeC cmp l r with
  | case1 r => exact hr
  | case2 l => exact hl
  | case3 a l b r h ih =>
    have hl' := List.pairwise_cons.1 hl
    refine List.pairwise_cons.2 ⟨?_, ih hl'.2 hr⟩
    intro x hx
    have hx' := (mergeC_perm cmp l (b :: r)).mem_iff.1 hx
    rcases List.mem_append.1 hx' with hx' | hx'
    · exact hl'.1 x hx'
    · rcases List.mem_cons.1 hx' with hx' | hx'
      · subst hx'; exact h1 _ _ h
      · exact trans _ _ _ (h1 _ _ h) ((List.pairwise_cons.1 hr).1 x hx')
  | case4 a l b r h ih =>
    have hr' := List.pairwise_cons.1 hr
    refine List.pairwise_cons.2 ⟨?_, ih hl hr'.2⟩
    intro x hx
    have hx' := (mergeC_perm cmp (a :: l) r).mem_iff.1 hx
    rcases List.mem_append.1 hx' with hx' | hx'
    · rcases List.mem_cons.1 hx' with hx' | hx'
      · subst hx'; exact h2 _ _ h
      · exact trans _ _ _ (h2 _ _ h) ((List.pairwise_cons.1 hl).1 x hx')
    · exact hr'.1 x hx'

theorem msortC_perm {α : Type u} (cmp : α → α → Int) (l : List α) : (msortC cmp l).Perm l := by
  induction hn : l.length using Nat.strong_induction_on generalizing l with
  | _ n ih =>
    rw [msortC]
    split
    · exact List.Perm.refl _
    · refine (mergeC_perm _ _ _).trans ?_
      have a := ih (l.take (l.length / 2)).length (by simp only [List.length_take]; omega) _ rfl
      have b := ih (l.drop (l.length / 2)).length (by simp only [List.length_drop]; omega) _ rfl
      have := a.append b
      rwa [List.take_append_drop] at this

theorem msortC_sorted {α : Type u} (cmp : α → α → Int) (S : α → α → Prop)
    (trans : ∀ a b c, S a b → S b c → S a c)
    (h1 : ∀ a b, cmp a b ≤ 0 → S a b) (h2 : ∀ a b, ¬ cmp a b ≤ 0 → S b a) (l : List α) :
    (msortC cmp l).Pairwise S := by
  induction hn : l.length using Nat.strong_induction_on generalizing l with
  | _ n ih =>
    rw [msortC]
    split
    · match l with
      | [] => simp
      | [a] => simp
      | _ :: _ :: _ => simp at *
    · exact mergeC_sorted cmp S trans h1 h2 _ _
        (ih _ (by simp only [List.length_take]; omega) _ rfl)
        (ih _ (by simp only [List.length_drop]; omega) _ rfl)

end Mica
