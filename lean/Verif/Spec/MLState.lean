import Verif.Model.MLState
import Verif.Spec.ML

/-!
# Histories of a confusion matrix in which operations may raise
-/

namespace SegEval.Spec

open SegEval

variable {κ : Type _} [DecidableEq κ]

/-- Make the query: what it gives, and the matrix afterwards. -/
def Query.runS (o : ClassOrder κ) (site : List ℕ) (m : CM κ) : Query κ → Py PyNum × CM κ
  | .precision c v => SegEval.precisionS o site c v m
  | .recall c v => SegEval.recallS o site c v m
  | .fmeasure c b v => SegEval.fmeasureS o site c b v m

/-- The matrix after an operation, whether it raised or not. -/
def MOp.after (o : ClassOrder κ) (site : List ℕ) (m : CM κ) : MOp κ → CM κ
  | .look p => m.touch p
  | .read p a => (m.read p a).2
  | .write p a v => m.write p a v
  | .incr p a v => (m.incrS p a v).2
  | .classes => m.classes.2
  | .ask q => (q.runS o site m).2

/-- The matrix after a program that catches every exception and goes on. -/
def lived (o : ClassOrder κ) : ℕ → CM κ → List (MOp κ) → CM κ
  | _, m, [] => m
  | k, m, op :: ops => lived o (k + 1) (op.after o [k] m) ops

/-- One answer for each label, if all have one. -/
def answers {ι : Type _} (f : ℕ → Option ℚ) : List (ι × ℕ) → Option (List (ι × ℚ))
  | [] => some []
  | (l, i) :: d =>
    match f i, answers f d with
    | some x, some xs => some ((l, x) :: xs)
    | _, _ => none

/-- The numbers of a returned dict. -/
def numbers {ι : Type _} (r : Py (List (ι × PyNum))) : Option (List (ι × ℚ)) :=
  match r with
  | .ok d => some (d.map (fun e => (e.1, e.2.val)))
  | .error _ => none

end SegEval.Spec
