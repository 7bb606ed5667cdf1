import Verif.Spec.Locality

/-!
# Near misses
-/

namespace SegEval.Spec

open SegEval

/-- In `a` a boundary of type `t` is at `q` that in `b` is at `p`, less than `nT` positions away; no other
position within reach of these two has a difference. -/
structure NearMiss (a b : BString) (nT : ℤ) (p q : ℕ) (t : ℤ) : Prop where
  apart : p ≠ q
  near : |(p : ℤ) - q| < nT
  missing : typesAt b p = insert t (typesAt a p) ∧ t ∉ typesAt a p
  placed : typesAt a q = insert t (typesAt b q) ∧ t ∉ typesAt b q
  alone : ∀ r : ℕ, r ≠ p → r ≠ q → |(r : ℤ) - p| < nT ∨ |(r : ℤ) - q| < nT → missedAt a b r = ∅

/-- `a'` is `a` with positions `p` and `q` made equal to those of `b`. -/
structure PutRight (a b : BString) (p q : ℕ) (a' : BString) : Prop where
  length : a'.length = a.length
  first : typesAt a' p = typesAt b p
  second : typesAt a' q = typesAt b q
  elsewhere : ∀ r, r ≠ p → r ≠ q → typesAt a' r = typesAt a r

/-- `a` lacks a boundary of type `t` that `b` has at `p`, and has no other difference within reach. -/
structure Omission (a b : BString) (nT : ℤ) (p : ℕ) (t : ℤ) : Prop where
  missing : typesAt b p = insert t (typesAt a p) ∧ t ∉ typesAt a p
  alone : Isolated a b nT p

end SegEval.Spec
