import Verif.Py
import Mathlib.Algebra.BigOperators.Group.Finset.Basic
import Mathlib.Algebra.Order.BigOperators.Group.Finset
import Mathlib.Algebra.Order.Group.Int
import Mathlib.Algebra.Order.Group.Abs

/-!
# Model of `segeval/similarity/distance/__init__.py` and `.../multipleboundary.py`

A boundary string is a list of sets of boundary types.  Simplification: boundary types are ints
(the code subtracts them, so they must be numbers).
-/

namespace SegEval

/-- A boundary string: the set of boundary types at each position (segeval/format.py:61). -/
abbrev BString := List (Finset ℤ)

/-- segeval/similarity/distance/__init__.py:8-18 `identify_types`. -/
def identifyTypes (a b : BString) : Finset ℤ :=
  (a ++ b).foldl (fun acc position => acc ∪ position) ∅

/-- Which string an addition comes from (segeval/similarity/distance/multipleboundary.py:11). -/
inductive Side | a | b
  deriving DecidableEq, Repr

/-- segeval/similarity/distance/multipleboundary.py:11 `Addition`. -/
structure Addition where
  type : ℤ
  side : Side
  deriving DecidableEq, Repr

/-- segeval/similarity/distance/multipleboundary.py:12 `Substitution`. -/
structure Substitution where
  typeA : ℤ
  typeB : ℤ
  deriving DecidableEq, Repr

/-- segeval/similarity/distance/multipleboundary.py:13 `Transposition` (called `start`, `end`,
`type` there). -/
structure Transposition where
  start : ℕ
  stop : ℕ
  type : ℤ
  deriving DecidableEq, Repr

/-- segeval/similarity/distance/multipleboundary.py:14 `Difference`. -/
structure Difference where
  sim : Finset ℤ
  ab : Finset ℤ
  ba : Finset ℤ
  deriving DecidableEq

/-- segeval/similarity/distance/multipleboundary.py:17-32 `__additions_substitutions__`: the numbers
of additions and
substitutions at one position.  The second component is a true division in Python; only its sign
is ever used, so it is kept as a rational. -/
def additionsSubstitutions (d a b : Finset ℤ) : ℤ × ℚ :=
  let additions : ℤ := |(a.card : ℤ) - (b.card : ℤ)|
  (additions, ((d.card : ℚ) - (additions : ℚ)) / 2)

/-- Each element of a list with the list of the others, in order
(segeval/similarity/distance/multipleboundary.py:50-51). -/
def picks {α : Type _} : List α → List (α × List α)
  | [] => []
  | x :: xs => (x, xs) :: (picks xs).map (fun p => (p.1, x :: p.2))

/-- `itertools.permutations(l)` where `n = len(l)`: lexicographic order of positions
(segeval/similarity/distance/multipleboundary.py:50-51). -/
def permsOf {α : Type _} : ℕ → List α → List (List α)
  | 0, _ => [[]]
  | n + 1, l => (picks l).flatMap (fun p => (permsOf n p.2).map (fun r => p.1 :: r))

/-- `itertools.permutations(l)` (segeval/similarity/distance/multipleboundary.py:50-51). -/
def permutations {α : Type _} (l : List α) : List (List α) := permsOf l.length l

/-- segeval/similarity/distance/multipleboundary.py:54-55 the total type distance of a set of pairs.
-/
def pairDelta (s : Finset (ℤ × ℤ)) : ℤ := s.sum (fun p => |p.1 - p.2|)

/-- segeval/similarity/distance/multipleboundary.py:50-58 one step of the search over permutation
pairs: keep the current best
unless the new set is strictly cheaper. -/
def searchStep (best : Option (ℤ × Finset (ℤ × ℤ))) (pa pb : List ℤ) :
    Option (ℤ × Finset (ℤ × ℤ)) :=
  let current := (pa.zip pb).toFinset
  let currentDelta := pairDelta current
  match best with
  | none => some (currentDelta, current)
  | some (delta, s) => if currentDelta < delta then some (currentDelta, current) else some (delta, s)

/-- segeval/similarity/distance/multipleboundary.py:48-58 the two nested loops over permutations of
the sorted sets. -/
def bestSubstitutions (a b : Finset ℤ) : Option (ℤ × Finset (ℤ × ℤ)) :=
  (permutations (sortedZ a)).foldl
    (fun best pa => (permutations (sortedZ b)).foldl (fun best pb => searchStep best pa pb) best)
    none

/-- segeval/similarity/distance/multipleboundary.py:35-73 `__additions_substitutions_sets__`.  `i`
names the loop instance for
the iteration-order oracle.  The final `assert len(added) is len(additions)` compares two computed
ints by identity. -/
def additionsSubstitutionsSets (rt : Runtime) (i : ℕ) (d a b : Finset ℤ) :
    Py (List Addition × List Substitution) :=
  let substitutions : Finset (ℤ × ℤ) :=
    match bestSubstitutions a b with
    | none => ∅
    | some (_, s) => s
  let substituted : Finset ℤ := substitutions.image Prod.fst ∪ substitutions.image Prod.snd
  let additions := d \ substituted
  let added :=
    (rt.order [1, i] (a \ substituted)).map (fun t => Addition.mk t .a) ++
    (rt.order [2, i] (b \ substituted)).map (fun t => Addition.mk t .b)
  if isInt added.length additions.card then
    .ok (added, (rt.orderP [3, i] substitutions).map (fun p => Substitution.mk p.1 p.2))
  else .error .assertionError

/-- `options_set`: position to difference, or absent
(segeval/similarity/distance/multipleboundary.py:164-178). -/
abbrev Options := ℕ → Option Difference

/-- segeval/similarity/distance/multipleboundary.py:76-89 `__has_substitutions__`. -/
def hasSubstitutions (i j : ℕ) (d : ℤ) (options : Options) : Bool :=
  match options i, options j with
  | some di, some dj =>
    if d ∈ di.sim ∧ d ∈ dj.sim then
      decide (0 < (additionsSubstitutions di.sim di.ab di.ba).2) &&
      decide (0 < (additionsSubstitutions dj.sim dj.ab dj.ba).2)
    else false
  | _, _ => false

/-- segeval/similarity/distance/multipleboundary.py:106 `t[2] is d`: identity of two boundary-type
objects; `site` names the
moment of comparison. -/
def sameType (rt : Runtime) (site : List ℕ) (t : Transposition) (d : ℤ) : Bool :=
  decide (t.type = d) && (smallInt d || rt.sameObj site d)

/-- segeval/similarity/distance/multipleboundary.py:92-108 `__overlaps_existing__`; `optionsTransp
p` is the list recorded for
position `p` (empty when the key is absent). -/
def overlapsExisting (rt : Runtime) (i j : ℕ) (d : ℤ) (optionsTransp : ℕ → List Transposition) :
    Bool :=
  (optionsTransp i).any (fun t => sameType rt [i, j, t.start, t.stop] t d) ||
  (optionsTransp j).any (fun t => sameType rt [i, j, t.start, t.stop] t d)

/-- The mutable state of the transposition search
(segeval/similarity/distance/multipleboundary.py:119-120 and the
`options_set` argument mutated at 155-160). -/
structure TState where
  optionsTransp : ℕ → List Transposition
  transpositions : List Transposition
  options : Options

/-- `options_set[p][0..2].discard(d)` for one position; `KeyError` if the position is absent
(segeval/similarity/distance/multipleboundary.py:155-160). -/
def discardAt (options : Options) (p : ℕ) (d : ℤ) : Py Options :=
  match options p with
  | none => .error .keyError
  | some x => .ok (Function.update options p (some ⟨x.sim.erase d, x.ab.erase d, x.ba.erase d⟩))

/-- segeval/similarity/distance/multipleboundary.py:138-160 the body of the loop over `t_p` for one
boundary type. -/
def transpBody (rt : Runtime) (i j : ℕ) (s : TState) (d : ℤ) : Py TState :=
  if overlapsExisting rt i j d s.optionsTransp = false ∧ hasSubstitutions i j d s.options = false
  then
    let t : Transposition := ⟨i, j, d⟩
    let ot1 := Function.update s.optionsTransp i (s.optionsTransp i ++ [t])
    let ot2 := Function.update ot1 j (ot1 j ++ [t])
    match discardAt s.options i d with
    | .error e => .error e
    | .ok o1 =>
      match discardAt o1 j d with
      | .error e => .error e
      | .ok o2 => .ok ⟨ot2, s.transpositions ++ [t], o2⟩
  else .ok s

/-- segeval/similarity/distance/multipleboundary.py:135-136 `t_p`: the types that differ at both
positions, within `a` and
within `b`. -/
def transpCandidates (ai aj bi bj : Finset ℤ) : Finset ℤ :=
  (symmDiff ai bi) ∩ (symmDiff aj bj) ∩ (symmDiff ai aj) ∩ (symmDiff bi bj)

/-- segeval/similarity/distance/multipleboundary.py:124-160 the body of the loop over positions for
one span. -/
def transpPosition (rt : Runtime) (a b : BString) (span : ℕ) (s : TState) (i : ℕ) : Py TState :=
  let j := i + span
  match a[i]?, a[j]?, b[i]?, b[j]? with
  | some ai, some aj, some bi, some bj =>
    forLoop (rt.order [0, span, i] (transpCandidates ai aj bi bj)) s (transpBody rt i j)
  | _, _, _, _ => .error .indexError

/-- segeval/similarity/distance/multipleboundary.py:121-160 the loop over positions for one span
`n_i - 1`. -/
def transpSpan (rt : Runtime) (a b : BString) (s : TState) (span : ℕ) : Py TState :=
  forLoop (List.range (a.length - span)) s (transpPosition rt a b span)

/-- `range(2, n_t + 1)` with `n_i - 1` already applied
(segeval/similarity/distance/multipleboundary.py:121-122,224). -/
def spans (nT : ℤ) : List ℕ := (List.range (nT - 1).toNat).map (· + 1)

/-- segeval/similarity/distance/multipleboundary.py:111-161 `__transpositions__`. -/
def transpositionsLoop (rt : Runtime) (a b : BString) (nT : ℤ) (options : Options) : Py TState :=
  forLoop (spans nT) ⟨fun _ => [], [], options⟩ (transpSpan rt a b)

/-- segeval/similarity/distance/multipleboundary.py:164-178 `__optional_set_edits__`.  The dict is
keyed by the positions
`0, 1, ...` in that order. -/
def optionalSetEdits (a b : BString) : Options := fun i =>
  match a[i]?, b[i]? with
  | some ai, some bi =>
    if 0 < (symmDiff ai bi).card then some ⟨symmDiff ai bi, ai \ bi, bi \ ai⟩ else none
  | _, _ => none

/-- segeval/similarity/distance/multipleboundary.py:199-204 one position of the loop over
`options_set`. -/
def collectStep (rt : Runtime) (options : Options) (acc : List Addition × List Substitution)
    (i : ℕ) : Py (List Addition × List Substitution) :=
  match options i with
  | none => .ok acc
  | some x =>
    match additionsSubstitutionsSets rt i x.sim x.ab x.ba with
    | .error e => .error e
    | .ok (adds, subs) => .ok (acc.1 ++ adds, acc.2 ++ subs)

/-- segeval/similarity/distance/multipleboundary.py:198-204 the loop over `options_set.values()`
(insertion order is position
order), collecting additions and substitutions. -/
def collectEdits (rt : Runtime) (n : ℕ) (options : Options) :
    Py (List Addition × List Substitution) :=
  forLoop (List.range n) ([], []) (collectStep rt options)

/-- The three edit lists returned by boundary edit distance
(segeval/similarity/distance/multipleboundary.py:206). -/
structure Edits where
  additions : List Addition
  substitutions : List Substitution
  transpositions : List Transposition
  deriving DecidableEq

/-- segeval/similarity/distance/multipleboundary.py:181-206 and 209-225 `boundary_edit_distance`. -/
def boundaryEditDistance (rt : Runtime) (a b : BString) (nT : ℤ) : Py Edits :=
  match transpositionsLoop rt a b nT (optionalSetEdits a b) with
  | .error e => .error e
  | .ok s =>
    match collectEdits rt (min a.length b.length) s.options with
    | .error e => .error e
    | .ok (adds, subs) => .ok ⟨adds, subs, s.transpositions⟩

end SegEval
