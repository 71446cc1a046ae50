import Verif.Model.PyObjects

/-!
# What a history of calls asks for (several objects of the Python interface)

Histories are read backwards: the newest call comes first.
-/

namespace Mica

/-- The settings a user asks for with `setup` of a class; `pmap` has two components, `nmap` no line. -/
def askedSet (mode : Mode) (low upp : ℕ) (data : CStr) : ObjSet :=
  match mode with
  | .nmap => ⟨1, 0, data⟩
  | .pmap => ⟨2, 1, data⟩
  | _ => ⟨low, upp + 1 - low, data⟩

/-- A file of priors was given to object `i`. -/
def gaveFile (i : ℕ) : List ObjOp → Bool
  | [] => false
  | .setPriors k _ :: past => k = i || gaveFile i past
  | _ :: past => gaveFile i past

/-- The file given last, to whichever object. -/
def lastFile : List ObjOp → Option CStr
  | [] => none
  | .setPriors _ f :: _ => some f
  | _ :: past => lastFile past

/-- The file given last to object `i`. -/
def lastFileOf (i : ℕ) : List ObjOp → Option CStr
  | [] => none
  | .setPriors k f :: past => if k = i then some f else lastFileOf i past
  | _ :: past => lastFileOf i past

/-- The settings of the last call of `setup` that is not refused, of whichever object. -/
def lastSet (mode : ℕ → Mode) : List ObjOp → Option ObjSet
  | [] => none
  | .setup i low upp data :: past =>
    if mode i ≠ .pmap ∧ mode i ≠ .nmap ∧ low < upp ∧ gaveFile i past = true then lastSet mode past
    else some (askedSet (mode i) low upp data)
  | _ :: past => lastSet mode past

/-- The number of evidences for which the last `setup` of object `i` made room, refused or not. -/
def roomOf (mode : ℕ → Mode) (i : ℕ) : List ObjOp → ℕ
  | [] => 0
  | .setup k low upp data :: past => if k = i then (askedSet (mode i) low upp data).diff else roomOf mode i past
  | _ :: past => roomOf mode i past

/-- The number of evidences that an analysis with these settings finds. -/
def evidences (mode : Mode) (s : ObjSet) : ℕ := if mode = .nmap then 0 else if mode = .mmap then 1 else s.diff

/-- No call of `setup`. -/
def NoSetup (ops : List ObjOp) : Prop := ∀ i low upp data, ObjOp.setup i low upp data ∉ ops

/-- Files of priors are given to object `i` only. -/
def FilesOf (i : ℕ) (ops : List ObjOp) : Prop := ∀ k f, ObjOp.setPriors k f ∈ ops → k = i

end Mica
