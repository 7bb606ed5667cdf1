import Verif.Model.AnyArgs
import Verif.Spec.Compute

/-!
# Values that do not fit the declared format
-/

namespace SegEval.Spec

open SegEval

/-- The value is a segmentation of the format: masses are ints, boundary strings are sets, NLTK strings are
strings; every sequence is a sequence of position labels.  An empty sequence has no elements to be wrong. -/
def Fits : BoundaryFormat → SeqArg → Prop
  | .mass, x => ∀ e ∈ x.elements, ∃ n, e = .int n
  | .sets, x => ∀ e ∈ x.elements, ∃ s, e = .set s
  | .nltk, x => ∃ s, x = .seg (.str s)
  | .position, _ => True
  | .other, _ => False

/-- A dict, possibly a `Dataset`. -/
inductive DictLike : ArgVal → Items → Prop
  | dataset (d : Dataset) : DictLike (.dataset d) d.items
  | dict (d : Items) : DictLike (.dict d) d

/-- What the metric is given for an argument that is not compared as a dataset. -/
inductive TakenAs : ArgVal → SeqArg → Prop
  | seg (s : Seg) : TakenAs (.seg s) (.seg s)
  | int (n : ℤ) : TakenAs (.int n) (.seg (.ints true [⟨n, 0⟩]))
  /-- A dict is the sequence of its keys. -/
  | dict {x : ArgVal} {d : Items} : DictLike x d → TakenAs x (.keys (d.map Prod.fst))

/-- Two non-empty arguments, a dict or dataset where a segmentation is expected. -/
def Mixed (c : CallArgs) (a b : SeqArg) : Prop :=
  a.elements ≠ [] ∧ b.elements ≠ [] ∧ ∃ h r, TakenAs h a ∧ TakenAs r b ∧ Two c h r ∧
    ((∃ d, DictLike h d) ∨ ∃ d, DictLike r d) ∧ ¬ ((∃ d, h = .dataset d) ∧ ∃ d, r = .dataset d)

/-- The sequence of ints in which each label is replaced by its number. -/
def numbered (φ : Label → ℤ) (x : SeqArg) : Seg := .ints true (x.elements.map (fun e => ⟨φ e, 0⟩))

end SegEval.Spec
