import Mathlib.Data.Rat.Defs
import Mathlib.Algebra.Order.Field.Basic
import Mathlib.Algebra.Order.Ring.Rat
import Mathlib.Algebra.Order.Group.Unbundled.Abs

/-!
# What is required of rounded arithmetic

Specifications of a rounding function, without saying how it is computed.
-/

namespace SegEval.Spec

/-- A rounding that keeps the order, rounds nothing twice and keeps integers up to `limit`. -/
structure Faithful (r : ℚ → ℚ) (limit : ℕ) : Prop where
  mono : Monotone r
  idem : ∀ q, r (r q) = r q
  int : ∀ n : ℤ, |n| ≤ limit → r n = n

/-- Every result is within the relative error `eps`. -/
def Accurate (r : ℚ → ℚ) (eps : ℚ) : Prop := ∀ q, |r q - q| ≤ eps * |q|

end SegEval.Spec
