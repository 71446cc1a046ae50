import Verif.Model.Getopt

/-!
# What a command line means

The usual convention, written without reference to the program: arguments that begin with `-` (and are longer) are
groups of one-letter options, an option with a value takes the rest of its group or, if that is empty, the next
argument; everything else is a name, wherever it stands.
-/

namespace Mica

/-- `CmdLine flag val args es ps`: the arguments `args` give the options `es` and the names `ps`, each in order.
`flag` are the letters without, `val` those with a value. -/
inductive CmdLine (flag val : Char → Prop) : List CStr → List (Char × Option CStr) → List CStr → Prop
  | nil : CmdLine flag val [] [] []
  | name (a : CStr) (h : ¬ (a.head? = some '-' ∧ 2 ≤ a.length)) {l es ps} : CmdLine flag val l es ps → CmdLine flag val (a :: l) es (a :: ps)
  | flags (c : Char) (fs : List Char) (h : ∀ x ∈ c :: fs, flag x) {l es ps} : CmdLine flag val l es ps →
      CmdLine flag val (('-' :: c :: fs) :: l) ((c :: fs).map (·, none) ++ es) ps
  | joined (fs : List Char) (h : ∀ x ∈ fs, flag x) (c : Char) (hc : val c) (v : CStr) (hv : v ≠ []) {l es ps} :
      CmdLine flag val l es ps →
      CmdLine flag val (('-' :: (fs ++ c :: v)) :: l) (fs.map (·, none) ++ (c, some v) :: es) ps
  | apart (fs : List Char) (h : ∀ x ∈ fs, flag x) (c : Char) (hc : val c) (v : CStr) {l es ps} :
      CmdLine flag val l es ps →
      CmdLine flag val (('-' :: (fs ++ [c])) :: v :: l) (fs.map (·, none) ++ (c, some v) :: es) ps

end Mica
