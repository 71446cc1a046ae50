/-!
# Outcomes of a C computation

The C program can, besides returning, call `exit`, run into undefined behaviour
(out-of-bounds access, division by zero, ...) or keep looping on the supplied stream of
random numbers.  Each is a distinct outcome of the model.
-/

namespace Mica

/-- Outcome of a modelled C computation.
* `ok a`  : normal return with value `a`
* `exit`  : the code calls `exit(..)`
* `ub`    : undefined behaviour (out-of-bounds access, integer division by zero, ...)
* `hang`  : a `do..while` loop has not terminated on the random numbers supplied. -/
inductive Res (α : Type u) where
  | ok (a : α)
  | exit
  | ub
  | hang
  deriving Repr, DecidableEq

namespace Res

/-- Sequencing: the first abnormal outcome wins. -/
def bind {α : Type u} {β : Type v} (x : Res α) (f : α → Res β) : Res β :=
  match x with
  | ok a => f a
  | exit => exit
  | ub => ub
  | hang => hang

instance : Monad Res where
  pure := ok
  bind := bind

@[simp] theorem pure_eq {α : Type u} (a : α) : (pure a : Res α) = ok a := rfl
@[simp] theorem ok_bind {α β : Type u} (a : α) (f : α → Res β) : ((ok a : Res α) >>= f) = f a := rfl
@[simp] theorem exit_bind {α β : Type u} (f : α → Res β) : ((exit : Res α) >>= f) = exit := rfl
@[simp] theorem ub_bind {α β : Type u} (f : α → Res β) : ((ub : Res α) >>= f) = ub := rfl
@[simp] theorem hang_bind {α β : Type u} (f : α → Res β) : ((hang : Res α) >>= f) = hang := rfl

/-- A bind returns normally exactly if both parts do. -/
theorem bind_eq_ok {α β : Type u} {x : Res α} {f : α → Res β} {b : β} :
    (x >>= f) = ok b ↔ ∃ a, x = ok a ∧ f a = ok b := by
  cases x <;> simp

/-- A bind is undefined behaviour exactly if one of the two parts is. -/
theorem bind_eq_ub {α β : Type u} {x : Res α} {f : α → Res β} :
    (x >>= f) = ub ↔ x = ub ∨ ∃ a, x = ok a ∧ f a = ub := by
  cases x <;> simp

/-- Read an array cell; out of bounds is undefined behaviour. -/
def get {α : Type u} (l : List α) (i : Nat) : Res α :=
  match l[i]? with
  | some a => ok a
  | none => ub

theorem get_eq_ok {α : Type u} {l : List α} {i : Nat} {a : α} :
    get l i = ok a ↔ l[i]? = some a := by
  unfold get; cases l[i]? <;> simp

theorem get_of_lt {α : Type u} {l : List α} {i : Nat} (h : i < l.length) :
    get l i = ok l[i] := by
  simp [get, h]

/-- Write an array cell; out of bounds is undefined behaviour. -/
def put {α : Type u} (l : List α) (i : Nat) (a : α) : Res (List α) :=
  if i < l.length then ok (l.set i a) else ub

theorem put_eq_ok {α : Type u} {l l' : List α} {i : Nat} {a : α} :
    put l i a = ok l' ↔ i < l.length ∧ l' = l.set i a := by
  unfold put
  by_cases h : i < l.length
  · simp [h, eq_comm]
  · simp [h]

theorem put_of_lt {α : Type u} {l : List α} {i : Nat} {a : α} (h : i < l.length) :
    put l i a = ok (l.set i a) := by
  simp [put, h]

end Res
end Mica
