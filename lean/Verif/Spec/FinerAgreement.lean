import Verif.Spec.AgreementStep
import Verif.Spec.Finer

/-!
# Data sets counted in smaller units
-/

namespace SegEval.Spec

open SegEval

/-- The same codings, with every unit divided in `m`. -/
structure SmallerUnits (kw kw' : BoundaryFormat) (data data' : AgrData) (S S' : Name → Name → BString)
    (m : ℕ) : Prop where
  dict : IsDict data.items
  dict' : IsDict data'.items
  one : agrFormat kw data ≠ .sets
  one' : agrFormat kw' data' ≠ .sets
  labels : (data'.items.map Prod.fst).toFinset = (data.items.map Prod.fst).toFinset
  coders : getCoders data' = getCoders data
  pos : 1 ≤ m
  coded : CodedAs (agrFormat kw data) data.items S
  coded' : CodedAs (agrFormat kw' data') data'.items S'
  finer : ∀ l c, S' l c = Spec.finer m ∅ (S l c)

end SegEval.Spec
