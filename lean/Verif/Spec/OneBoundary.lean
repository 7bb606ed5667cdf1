import Verif.Spec.Wider
import Verif.Spec.Locality
import Verif.Spec.WindowCost

/-!
# One boundary more
-/

namespace SegEval.Spec

open SegEval

/-- `a'` is `a` with one boundary more: one of type `t` at `p`. -/
structure OneMore (a a' : BString) (p : ℕ) (t : ℤ) : Prop where
  length : a'.length = a.length
  inside : p < a.length
  new : t ∉ typesAt a p
  here : typesAt a' p = insert t (typesAt a p)
  elsewhere : ∀ q, q ≠ p → typesAt a' q = typesAt a q

end SegEval.Spec
