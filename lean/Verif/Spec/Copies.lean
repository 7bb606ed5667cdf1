import Verif.Spec.AgreementStep

/-!
# Data sets in which every coder occurs several times
-/

namespace SegEval.Spec

open SegEval

/-- The same items, each coder (`S`) under `k` names (`S'`); `who` says whose copy a name is. -/
structure Copied (kw kw' : BoundaryFormat) (data data' : AgrData) (S S' : Name → Name → BString)
    (who : Name → Name) (k : ℕ) : Prop where
  dict : IsDict data.items
  dict' : IsDict data'.items
  one : agrFormat kw data ≠ .sets
  one' : agrFormat kw' data' ≠ .sets
  labels : (data'.items.map Prod.fst).toFinset = (data.items.map Prod.fst).toFinset
  pos : 1 ≤ k
  known : ∀ c ∈ getCoders data', who c ∈ getCoders data
  times : ∀ c ∈ getCoders data, ((getCoders data').filter (fun e => who e = c)).card = k
  coded : CodedAs (agrFormat kw data) data.items S
  coded' : CodedAs (agrFormat kw' data') data'.items S'
  same : ∀ l c, S' l c = S l (who c)

end SegEval.Spec
