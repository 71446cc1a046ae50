import Verif.Model.Restart
import Verif.Spec.Sampler

/-!
# Executions that are interrupted and resumed any number of times
-/

namespace Mica

variable {d : ℕ}

/-- States of a sampler that may have been stopped and resumed from a snapshot any number of times, each time with
another requested number of saves.  The snapshot may have been written in any earlier state, and the file of samples
may hold any rows at that moment (rows may be lost, or written after the snapshot). -/
inductive Sessions (L : (Fin d → ℝ) → ℝ) : SOpts → Sampler d → Prop
  | start (o : SOpts) (tie : ℝ) (draws : List (List ((Fin d → ℝ) × ℝ))) :
      ValidDraws o draws → Sessions L o (initSampler o L tie draws)
  | round {o : SOpts} {a b : Sampler d} (i : RoundIn d) :
      Sessions L o a → ValidRound o i → Mica.round o L i a = .ok b → Sessions L o b
  | resume {o : SOpts} {a b : Sampler d} (n : ℕ) (file : List (Particle d)) :
      Sessions L o a → readRestart { o with maxNumSaves := n } L file (writeRestart o a) = .ok b →
      Sessions L { o with maxNumSaves := n } b

end Mica
