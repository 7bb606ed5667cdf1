import Verif.Spec.Chance

/-!
# The codings of two coders

Agreement of many coders against agreement of each two of them.
-/

namespace SegEval.Spec

open SegEval

/-- The codings of two coders, of all items. -/
def ofPair (items : Items) (m n : Name) : Items :=
  items.map (fun it => (it.1, it.2.filter (fun c => decide (c.1 = m ∨ c.1 = n))))

/-- A value is that of every pair of coders that has one, or is strictly between those of two pairs. -/
def WithinPairs (coders : Finset Name) (pair : Name → Name → ℚ → Prop) (x : ℚ) : Prop :=
  (∀ m ∈ coders, ∀ n ∈ coders, m ≠ n → ∀ y, pair m n y → y = x) ∨
  (∃ m ∈ coders, ∃ n ∈ coders, m ≠ n ∧ ∃ y, pair m n y ∧ y < x) ∧
  ∃ m ∈ coders, ∃ n ∈ coders, m ≠ n ∧ ∃ y, pair m n y ∧ x < y

end SegEval.Spec
