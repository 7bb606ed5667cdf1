import Verif.Spec.AgreementStep

/-!
# The published chance-corrected coefficients

Every position is put in one of two categories by every coder: boundary or no boundary.
-/

namespace SegEval.Spec

open SegEval

/-- The number of positions at which a string has a boundary. -/
def placedAt (a : BString) : ℕ :=
  ((Finset.range a.length).filter (fun p => typesAt a p ≠ ∅)).card

/-- The number of positions at which both strings have a boundary or neither has. -/
def sameAt (a b : BString) : ℕ :=
  ((Finset.range a.length).filter (fun p => typesAt a p = ∅ ↔ typesAt b p = ∅)).card

/-- Observed agreement: the share of positions in the same category, over all items and pairs of
coders. -/
def observed (items : Items) (coders : Finset Name) (S : Name → Name → BString) : ℚ :=
  pooled items coders (fun l m n => sameAt (S l m) (S l n)) (fun l m _ => (S l m).length)

/-- The share of positions, over all items, at which a coder places a boundary. -/
def boundaryShare (items : Items) (S : Name → Name → BString) (m : Name) : ℚ :=
  (items.map (fun it => (placedAt (S it.1 m) : ℚ))).sum /
    (items.map (fun it => ((S it.1 m).length : ℚ))).sum

/-- The coefficient of an observed and an expected agreement. -/
def corrected (a e : ℚ) : ℚ := (a - e) / (1 - e)

/-- Multi-kappa (Davies and Fleiss 1982; for two coders Cohen 1960): by chance two coders agree on
either category, each with their own shares. -/
def multiKappa (items : Items) (coders : Finset Name) (S : Name → Name → BString) : ℚ :=
  corrected (observed items coders S)
    (meanProduct coders (boundaryShare items S) + meanProduct coders (fun m => 1 - boundaryShare items S m))

/-- The share of boundaries of all coders together. -/
def jointShare (items : Items) (coders : Finset Name) (S : Name → Name → BString) : ℚ :=
  (∑ m ∈ coders, boundaryShare items S m) / coders.card

/-- Multi-pi (Fleiss 1971; for two coders Scott 1955; Siegel and Castellan's K): by chance two coders
agree on either category, with the shares of all coders together. -/
def multiPi (items : Items) (coders : Finset Name) (S : Name → Name → BString) : ℚ :=
  corrected (observed items coders S)
    (jointShare items coders S ^ 2 + (1 - jointShare items coders S) ^ 2)

/-- The number of positions of each combination of categories: a boundary in the first, in the second. -/
def categoryCount (a b : BString) (first second : Bool) : ℕ :=
  ((Finset.range a.length).filter (fun p =>
    (typesAt a p ≠ ∅ ↔ first = true) ∧ (typesAt b p ≠ ∅ ↔ second = true))).card

/-- The same over all items, for two coders. -/
def categoryTable (items : Items) (S : Name → Name → BString) (m n : Name) (first second : Bool) : ℕ :=
  (items.map (fun it => categoryCount (S it.1 m) (S it.1 n) first second)).sum

/-- Cohen's kappa of a table of two coders' categories: both a boundary, only the first, only the
second, neither. -/
def cohen (both first second neither : ℕ) : ℚ :=
  let n : ℚ := both + first + second + neither
  corrected ((both + neither) / n)
    ((both + first) / n * ((both + second) / n) + (second + neither) / n * ((first + neither) / n))

end SegEval.Spec
