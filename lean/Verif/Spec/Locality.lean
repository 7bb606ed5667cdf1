import Verif.Spec.Formula

/-!
# Parts of documents and corrections
-/

namespace SegEval.Spec

open SegEval

/-- The transposition `k` positions further to the right. -/
def moved (k : ℕ) (t : Transposition) : Transposition := ⟨t.start + k, t.stop + k, t.type⟩

/-- No other position within reach of a transposition from `p` has a difference. -/
def Isolated (a b : BString) (nT : ℤ) (p : ℕ) : Prop :=
  ∀ q : ℕ, q ≠ p → |(q : ℤ) - p| < nT → missedAt a b q = ∅

/-- `a'` is `a` with position `p` made equal to that of `b`. -/
structure Corrected (a b : BString) (p : ℕ) (a' : BString) : Prop where
  length : a'.length = a.length
  here : typesAt a' p = typesAt b p
  elsewhere : ∀ q, q ≠ p → typesAt a' q = typesAt a q

/-- Both pairs of strings use the same boundary types. -/
def SameTypes (a b a' b' : BString) : Prop := ∀ t, UsesType a b t ↔ UsesType a' b' t

end SegEval.Spec
