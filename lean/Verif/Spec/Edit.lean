import Verif.Model.Edit

/-!
# What the boundary edits should mean

Everything here is said about the two boundary strings and the reported edits only; none of the
working state of the search is mentioned.
-/

namespace SegEval.Spec

open SegEval

/-- The boundary types at a position (none beyond the end). -/
def typesAt (s : BString) (p : ℕ) : Finset ℤ := (s[p]?).getD ∅

/-- The boundary types at `p` that only the first string has. -/
def onlyIn (a b : BString) (p : ℕ) : Finset ℤ := typesAt a p \ typesAt b p

/-- The boundary types the strings disagree on at `p`. -/
def missedAt (a b : BString) (p : ℕ) : Finset ℤ := onlyIn a b p ∪ onlyIn b a p

/-- A transposition has `p` as one of its two ends. -/
def Touches (t : Transposition) (p : ℕ) : Prop := t.start = p ∨ t.stop = p

instance (t : Transposition) (p : ℕ) : Decidable (Touches t p) := by unfold Touches; infer_instance

/-- Boundary type `t.type` moves between the two ends: one string has it only at one end, the other
string only at the other end. -/
def Moves (a b : BString) (t : Transposition) : Prop :=
  (t.type ∈ onlyIn a b t.start ∧ t.type ∈ onlyIn b a t.stop) ∨
  (t.type ∈ onlyIn b a t.start ∧ t.type ∈ onlyIn a b t.stop)

/-- A transposition that may be reported for window `nT`. -/
structure Genuine (a b : BString) (nT : ℤ) (t : Transposition) : Prop where
  ordered : t.start < t.stop
  inRange : t.stop < a.length
  span : ((t.stop : ℤ) - t.start) < nT
  moves : Moves a b t

/-- No two transpositions of one type share an end. -/
def Disjoint (ts : List Transposition) : Prop :=
  ts.Pairwise (fun t u => t.type = u.type → ∀ p, ¬ (Touches t p ∧ Touches u p))

/-- The types some transposition moves to or from position `p`. -/
def transposedAt (ts : List Transposition) (p : ℕ) : Finset ℤ :=
  ((ts.filter (fun t => decide (Touches t p))).map Transposition.type).toFinset

/-- The boundaries at `p` only in the first string that no transposition accounts for. -/
def leftover (a b : BString) (ts : List Transposition) (p : ℕ) : Finset ℤ :=
  onlyIn a b p \ transposedAt ts p

/-- A complete pairing of two sets: as many pairs as the smaller set has elements, each element
used at most once. -/
structure Pairing (A B : Finset ℤ) (S : Finset (ℤ × ℤ)) : Prop where
  left : ∀ p ∈ S, p.1 ∈ A
  right : ∀ p ∈ S, p.2 ∈ B
  injLeft : ∀ p ∈ S, ∀ q ∈ S, p.1 = q.1 → p = q
  injRight : ∀ p ∈ S, ∀ q ∈ S, p.2 = q.2 → p = q
  full : S.card = min A.card B.card

/-- The total type distance of a pairing. -/
def distance (S : Finset (ℤ × ℤ)) : ℤ := ∑ p ∈ S, |p.1 - p.2|

/-- A cheapest complete pairing. -/
def Cheapest (A B : Finset ℤ) (S : Finset (ℤ × ℤ)) : Prop :=
  Pairing A B S ∧ ∀ S', Pairing A B S' → distance S ≤ distance S'

/-- The number of edits of a script with the given transpositions: what they leave at a position
takes as many additions and substitutions as the string with more boundaries left there has. -/
def editsWith (a b : BString) (ts : List Transposition) : ℕ :=
  ts.length + ∑ p ∈ Finset.range a.length,
    max (leftover a b ts p).card (leftover b a ts p).card

/-- The strings differ in at most one boundary type. -/
def OneType (a b : BString) (t : ℤ) : Prop := ∀ p, missedAt a b p ⊆ {t}

/-- Equal boundary types met by the search are the same object (always so for cached ints, and for
any types when the two strings share their type objects). -/
def SharedTypes (rt : Runtime) (a b : BString) : Prop :=
  ∀ p, ∀ t ∈ missedAt a b p, smallInt t = true ∨ ∀ site, rt.sameObj site t = true

end SegEval.Spec
