import Verif.Spec.Agreement
import Verif.Spec.Wider

/-!
# Codings as strings, and how many of their boundaries change
-/

namespace SegEval.Spec

open SegEval

/-- What coder `m` gave the item `l` is the string `S l m`. -/
def CodedAs (fmt : BoundaryFormat) (items : Items) (S : Name → Name → BString) : Prop :=
  ∀ l m s, Coded items l m s → Denotes fmt s (S l m)

/-- The sum over all items and coders. -/
def overCodings (items : Items) (coders : Finset Name) (f : Name → Name → ℕ) : ℕ :=
  ∑ l ∈ (items.map Prod.fst).toFinset, ∑ m ∈ coders, f l m

/-- The number of boundaries in which two strings differ. -/
abbrev changed (a b : BString) : ℕ := (symmDiff (boundaries a) (boundaries b)).card

end SegEval.Spec
