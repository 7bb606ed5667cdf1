import Verif.Spec.Window

/-!
# Small differences between two patterns of boundaries
-/

namespace SegEval.Spec

/-- The places at which two patterns differ. -/
def differing (p q : List Bool) : Finset ℕ :=
  (Finset.range p.length).filter (fun m => p[m]? ≠ q[m]?)

/-- The patterns differ at one place only. -/
structure DifferAt (p q : List Bool) (i : ℕ) : Prop where
  here : p[i]? ≠ q[i]?
  rest : ∀ m, m ≠ i → p[m]? = q[m]?

/-- `q` is `p` with one boundary moved from `i` to `j`. -/
structure BoundaryMoved (p q : List Bool) (i j : ℕ) : Prop where
  leave : p[i]? = some true ∧ q[i]? = some false
  enter : p[j]? = some false ∧ q[j]? = some true
  rest : ∀ m, m ≠ i → m ≠ j → p[m]? = q[m]?

end SegEval.Spec
