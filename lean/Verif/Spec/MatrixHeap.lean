import Verif.Model.MatrixHeap

/-!
# Independent confusion matrices
-/

namespace SegEval.Spec

open SegEval

variable {κ : Type _} [DecidableEq κ]

/-- The matrix an operation is about. -/
def WOp.on : WOp κ → Option ℕ
  | .look i _ => some i
  | .read i _ _ => some i
  | .write i _ _ _ => some i
  | .classes i => some i
  | .change _ _ => none

/-- The operation changes a set the caller was given. -/
def WOp.changes : WOp κ → Prop
  | .change _ _ => True
  | _ => False

/-- What the caller sees, apart from the identity of sets. -/
def WOut.seen : WOut κ → Option (PyNum ⊕ Finset κ)
  | .nothing => none
  | .num v => some (.inl v)
  | .set _ S => some (.inr S)

/-- What the caller sees of matrix `j` in a run. -/
def seenOf (j : ℕ) (ops : List (WOp κ)) (outs : List (WOut κ)) : List (Option (PyNum ⊕ Finset κ)) :=
  ((ops.zip outs).filter (fun x => decide (WOp.on x.1 = some j))).map (fun x => WOut.seen x.2)

/-- The operations on matrix `j`. -/
def opsOn (j : ℕ) (ops : List (WOp κ)) : List (WOp κ) :=
  ops.filter (fun op => decide (WOp.on op = some j))

/-- The operation on one matrix taken as a value. -/
def WOp.value : WOp κ → CM κ → CM κ
  | .look _ p, m => m.touch p
  | .read _ p a, m => (m.read p a).2
  | .write _ p a v, m => m.write p a v
  | .classes _, m => m.classes.2
  | .change _ _, m => m

/-- The labels an operation names. -/
def WOp.names : WOp κ → κ → Prop
  | .look _ p, l => l = p
  | .read _ p a, l => l = p ∨ l = a
  | .write _ p a _, l => l = p ∨ l = a
  | _, _ => False

/-- The value last written to a cell of matrix `j`, given that before one operation. -/
def nextWritten (j : ℕ) (p a : κ) (x : PyNum) : WOp κ → PyNum
  | .write i p' a' v => if i = j ∧ p' = p ∧ a' = a then v else x
  | _ => x

/-- The value last written to a cell of matrix `j`, 0 if none. -/
def lastWritten (j : ℕ) (p a : κ) (ops : List (WOp κ)) : PyNum :=
  ops.foldl (nextWritten j p a) (.int 0)

/-- The caller was given the set `a` by a matrix other than `j` at some point of the run. -/
def GivenByOther (j a : ℕ) (ops : List (WOp κ)) : Prop :=
  ∃ pre i post S, ops = pre ++ .classes i :: post ∧ i ≠ j ∧
    ((({} : MWorld κ).run pre).2.step (.classes i)).1 = .set a S

end SegEval.Spec
