import Verif.Spec.Edit

/-!
# Which transpositions are reported
-/

namespace SegEval.Spec

open SegEval

/-- Shorter transpositions come first, among those of one span the ones further to the left. -/
def Earlier (u t : Transposition) : Prop :=
  u.stop - u.start < t.stop - t.start ∨ (u.stop - u.start = t.stop - t.start ∧ u.start < t.start)

instance (u t : Transposition) : Decidable (Earlier u t) := by unfold Earlier; infer_instance

/-- The transpositions of a list that come before `t`. -/
def earlier (ts : List Transposition) (t : Transposition) : List Transposition :=
  ts.filter (fun u => decide (Earlier u t))

/-- At both ends of `t` each string has a boundary the other lacks and that none of the given
transpositions accounts for, so that a substitution is possible at both ends. -/
def Substitutable (a b : BString) (ts : List Transposition) (t : Transposition) : Prop :=
  ∀ p, Touches t p → leftover a b ts p ≠ ∅ ∧ leftover b a ts p ≠ ∅

/-- Two transpositions of one type that share an end. -/
def Collide (t u : Transposition) : Prop := t.type = u.type ∧ ∃ p, Touches t p ∧ Touches u p

end SegEval.Spec
