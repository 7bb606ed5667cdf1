import Verif.Model.Compute

/-!
# What pairwise comparison and summaries should mean
-/

namespace SegEval.Spec

open SegEval

/-- In the items, coder `m` coded `label` as `s`. -/
def Coded (items : Items) (label m : Name) (s : Seg) : Prop :=
  ∃ codings, dictGet items label = some codings ∧ dictGet codings m = some s

/-- Coder `m` comes before coder `n` in the codings of `label`. -/
def Before (items : Items) (label m n : Name) : Prop :=
  ∃ codings, dictGet items label = some codings ∧ [m, n].Sublist (codings.map Prod.fst)

/-- What every Python dict satisfies: at most one entry per key. -/
def IsDict (items : Items) : Prop :=
  (items.map Prod.fst).Nodup ∧ ∀ e ∈ items, (e.2.map Prod.fst).Nodup

/-- No coder name has a comma. -/
def NoCommas (items : Items) : Prop := ∀ label m s, Coded items label m s → ',' ∉ m

/-- The text `label,m,n`. -/
def keyOf (label m n : Name) : Name := label ++ [','] ++ m ++ [','] ++ n

/-- The mean of numbers. -/
def meanOf (l : List ℚ) : ℚ := l.sum / l.length

/-- What a metric call can ask for. -/
inductive Request
  | segmentations (a b : Seg)
  | datasets (a b : Dataset)
  | dataset (d : Dataset)

/-- The segmentation an argument stands for: itself, or one segment for a bare integer. -/
inductive StandsFor : ArgVal → Seg → Prop
  | seg (s : Seg) : StandsFor (.seg s) s
  | int (n : ℤ) : StandsFor (.int n) (.ints true [⟨n, 0⟩])

/-- Two arguments, positional or by keyword. -/
def Two (c : CallArgs) (h r : ArgVal) : Prop :=
  c = { args := [h, r] } ∨ c = { hypothesis := some h, reference := some r }

/-- One argument, positional or by keyword. -/
def One (c : CallArgs) (d : ArgVal) : Prop := c = { args := [d] } ∨ c = { dataset := some d }

/-- The call asks for the request: non-empty data, and one boundary format for two datasets. -/
def Asks (c : CallArgs) : Request → Prop
  | .segmentations a b =>
    a.truthy = true ∧ b.truthy = true ∧ ∃ h r, StandsFor h a ∧ StandsFor r b ∧ Two c h r
  | .datasets a b =>
    a.items ≠ [] ∧ b.items ≠ [] ∧ a.boundaryFormat = b.boundaryFormat ∧
      Two c (.dataset a) (.dataset b)
  | .dataset d => d.items ≠ [] ∧ One c (.dataset d)

/-- What the request is answered with, given the metric and how to compare datasets. -/
def reply {R : Type _} (f : BoundaryFormat → Seg → Seg → Py R) (fmt : BoundaryFormat)
    (pairwise : (Seg → Seg → Py R) → Items → Option Items → Py (List (Name × R))) :
    Request → Py (CallOut R)
  | .segmentations a b => (f fmt a b).map .single
  | .datasets a b => (pairwise (f a.boundaryFormat) a.items (some b.items)).map .pairs
  | .dataset d => (pairwise (f d.boundaryFormat) d.items none).map .pairs

/-- A call with arguments of the documented kinds: positional or keyword arguments but not both,
no keyword that the others make superfluous, and no mixture of kinds. -/
inductive Documented : CallArgs → Prop
  | positional (l : List ArgVal) (h : l.length ≠ 1) (h2 : ∀ x ∈ l, ∀ d, x ≠ .dict d)
      (h3 : (∀ x ∈ l, ∀ d, x ≠ .dataset d) ∨ ∀ x ∈ l, ∀ s, ¬ StandsFor x s) :
      Documented { args := l }
  | one (c : CallArgs) (x : ArgVal) (h : One c x) (h2 : x = .none ∨ ∃ d, x = .dataset d) :
      Documented c
  | keywords (h r : Option ArgVal) (h2 : ∀ x, (h = some x ∨ r = some x) → ∀ d, x ≠ .dict d)
      (h3 : (∀ x, (h = some x ∨ r = some x) → ∀ d, x ≠ .dataset d) ∨
        ∀ x, (h = some x ∨ r = some x) → ∀ s, ¬ StandsFor x s) :
      Documented { hypothesis := h, reference := r }

end SegEval.Spec
