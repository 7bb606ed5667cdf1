import Verif.Spec.Edit

/-!
# Other names for the boundary types
-/

namespace SegEval.Spec

open SegEval

/-- The same boundaries with every type renamed. -/
def relabel (f : ℤ → ℤ) (s : BString) : BString := s.map (Finset.image f)

/-- The same transposition with its type renamed. -/
def retype (f : ℤ → ℤ) (t : Transposition) : Transposition := ⟨t.start, t.stop, f t.type⟩

/-- The renaming keeps how far types are apart. -/
def KeepsDistances (f : ℤ → ℤ) : Prop := ∀ x y, |f x - f y| = |x - y|

end SegEval.Spec
