import Verif.Spec.Wider

/-!
# Documents counted in smaller units
-/

namespace SegEval.Spec

/-- The potential boundaries after every unit has been divided in `m`: `d` stands for the new ones,
of which `m - 1` are within each unit. -/
def finer {α : Type _} (m : ℕ) (d : α) (l : List α) : List α :=
  List.replicate (m - 1) d ++ l.flatMap (fun x => x :: List.replicate (m - 1) d)

end SegEval.Spec
