import Verif.Spec.ML

namespace SegEval.Spec

variable {κ : Type _} [DecidableEq κ]

/-- `m'` holds the cells of `m` with the roles of prediction and truth exchanged, and lists the same
classes. -/
structure Transposed (m m' : CM κ) : Prop where
  cells : ∀ p a, cell m' a p = cell m p a
  classes : m'.classes.1 = m.classes.1

/-- The query about the roles exchanged: precision for recall, recall for precision, and the
F-measure with the inverse weight. -/
def Query.exchanged : Query κ → Query κ
  | .precision c v => .recall c v
  | .recall c v => .precision c v
  | .fmeasure c beta v => .fmeasure c beta⁻¹ v

/-- The number of boundaries of type `t` in a string. -/
def placed (s : BString) (t : ℤ) : ℕ :=
  ((Finset.range s.length).filter (fun p => t ∈ typesAt s p)).card

end SegEval.Spec
