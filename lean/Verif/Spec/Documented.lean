import Verif.Spec.Agreement

/-!
# Actual agreement as the documentation has it
-/

namespace SegEval.Spec

open SegEval

/-- segeval/agreement/__init__.py:80-108, docstring of `__actual_agreement_linear__`: the mean over pairs of
coders of the scores of the items, each weighed by the size of the item.  The mean is over ordered pairs,
which is the same for symmetric scores.  The docstring has mass(i) for the size in its formula for two
coders, and in that for more than two mass(i) above and mass(i) - 1 below (`documentedMany`). -/
def documented (items : Items) (coders : Finset Name) (size : Name → ℕ)
    (score : Name → Name → Name → ℚ) : ℚ :=
  (∑ m ∈ coders, ∑ n ∈ coders.erase m,
    (items.map (fun it => (size it.1 : ℚ) * score it.1 m n)).sum /
      (items.map (fun it => (size it.1 : ℚ))).sum) / (coders.card * (coders.card - 1))

/-- segeval/agreement/__init__.py:98-106: the docstring's formula for more than two coders to the letter,
with different weights above and below. -/
def documentedMany (items : Items) (coders : Finset Name) (mass : Name → ℕ)
    (score : Name → Name → Name → ℚ) : ℚ :=
  (∑ m ∈ coders, ∑ n ∈ coders.erase m,
    (items.map (fun it => (mass it.1 : ℚ) * score it.1 m n)).sum /
      (items.map (fun it => (mass it.1 : ℚ) - 1)).sum) / (coders.card * (coders.card - 1))

end SegEval.Spec
