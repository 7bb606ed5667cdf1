import Verif.Spec.Edit

/-!
# Which cheapest pairing is reported
-/

namespace SegEval.Spec

/-- The types that occur in a set of pairs. -/
def typesOf (S : Finset (ℤ × ℤ)) : Finset ℤ := S.image Prod.fst ∪ S.image Prod.snd

/-- No two pairs cross. -/
def Uncrossed (S : Finset (ℤ × ℤ)) : Prop := ∀ p ∈ S, ∀ q ∈ S, p.1 < q.1 → p.2 < q.2

/-- Of the elements that only one of two sets has, the smallest is in the first. -/
def NotAfter (U V : Finset ℤ) : Prop := ∀ x ∈ V \ U, ∃ y ∈ U \ V, y < x

/-- A cheapest complete pairing without crossings that prefers small types. -/
structure Preferred (A B : Finset ℤ) (S : Finset (ℤ × ℤ)) : Prop where
  cheapest : Cheapest A B S
  uncrossed : Uncrossed S
  first : ∀ S', Cheapest A B S' → NotAfter (typesOf S) (typesOf S')

/-- The same addition, seen from the other string. -/
def mirrorA (x : Addition) : Addition := ⟨x.type, match x.side with | .a => .b | .b => .a⟩

/-- The same substitution, seen from the other string. -/
def mirrorS (x : Substitution) : Substitution := ⟨x.typeB, x.typeA⟩

end SegEval.Spec
