import Mathlib.Data.Rat.Defs
import Mathlib.Data.Finset.SymmDiff
import Mathlib.Data.Finset.Lattice.Basic
import Mathlib.Data.List.Sort
import Mathlib.Algebra.Order.Field.Basic
import Mathlib.Algebra.Field.Rat
import Mathlib.Algebra.Order.Ring.Rat

/-!
# The fragment of Python used by segeval

Exceptions are values (`Py α = Except PyErr α`).  This file models only language behaviour,
no code of the package.
-/

namespace SegEval

/-- The exceptions the modelled code can raise.  `unmodelled` marks calls outside the model
(a value whose Python type does not fit the declared boundary format) (e.g.
segeval/util/__init__.py, segeval/data/__init__.py:122-135). -/
inductive PyErr
  | segmentationMetricError   -- segeval.util.SegmentationMetricError
  | dataIOError               -- segeval.data.DataIOError
  | genericException          -- a bare `raise Exception(...)` (segeval/agreement/pi.py:24, segeval/agreement/kappa.py:24,27)
  | assertionError | indexError | keyError | valueError | typeError | attributeError
  | zeroDivisionError         -- int or float division by zero
  | decimalInvalidOperation   -- Decimal(0) / 0
  | decimalDivisionByZero     -- Decimal(x) / 0, x != 0
  | csvError                  -- csv.Error
  | unmodelled
  deriving DecidableEq, Repr

/-- A result, or the exception raised instead (segeval/util/__init__.py:10-28,
segeval/data/__init__.py:122-135, and those of the language). -/
abbrev Py (α : Type _) := Except PyErr α

instance {ε α : Type _} [DecidableEq ε] [DecidableEq α] : DecidableEq (Except ε α)
  | .ok a, .ok b => if h : a = b then isTrue (h ▸ rfl) else isFalse (fun h' => h (Except.ok.inj h'))
  | .error a, .error b =>
      if h : a = b then isTrue (h ▸ rfl) else isFalse (fun h' => h (Except.error.inj h'))
  | .ok _, .error _ => isFalse (fun h => by cases h)
  | .error _, .ok _ => isFalse (fun h => by cases h)

/-! ## Object identity -/

/-- CPython keeps one shared object for each int in `[-5, 256]` (segeval/window/pk.py:49-52,
segeval/window/windowdiff.py:110-121, segeval/similarity/distance/multipleboundary.py:72, 106). -/
def smallInt (x : ℤ) : Bool := decide (-5 ≤ x) && decide (x ≤ 256)

/-- `x is y` for two separately computed ints: the same object only when the value is cached
(segeval/window/pk.py:49-52, segeval/window/windowdiff.py:110-121,
segeval/similarity/distance/multipleboundary.py:72). -/
def isInt (x y : ℤ) : Bool := decide (x = y) && smallInt x

/-- A Python int object stored in a sequence: its value and an allocation tag
(segeval/window/pk.py:49-50, segeval/window/windowdiff.py:115-118,
segeval/similarity/distance/multipleboundary.py:106). -/
structure Obj where
  val : ℤ
  tag : ℕ
  deriving DecidableEq, Repr

/-- `x is y` for stored int objects: equal value, and either cached or the same allocation
(segeval/window/pk.py:49-50, segeval/window/windowdiff.py:115-118,
segeval/similarity/distance/multipleboundary.py:106). -/
def Obj.is (x y : Obj) : Bool := decide (x.val = y.val) && (smallInt x.val || decide (x.tag = y.tag))

/-! ## Sequences -/

/-- `l[i]`, with negative indices counted from the end (segeval/format.py:58). -/
def pyGet {α : Type _} (l : List α) (i : ℤ) : Py α :=
  let k : ℤ := if i < 0 then i + l.length else i
  if 0 ≤ k then
    match l[k.toNat]? with
    | some x => .ok x
    | none => .error .indexError
  else .error .indexError

/-- In-place update `l[i] = f(l[i])`, with negative indices counted from the end
(segeval/format.py:58). -/
def pyModify {α : Type _} (l : List α) (i : ℤ) (f : α → α) : Py (List α) :=
  let k : ℤ := if i < 0 then i + l.length else i
  if 0 ≤ k ∧ k < l.length then .ok (l.modify k.toNat f) else .error .indexError

/-- One bound of a slice, as CPython clamps it (segeval/window/pk.py:46-47,
segeval/window/windowdiff.py:106). -/
def pyClamp (n : ℕ) (i : ℤ) : ℕ :=
  if i < 0 then (i + n).toNat else min i.toNat n

/-- `l[i:j]` (segeval/window/pk.py:46-47, segeval/window/windowdiff.py:106). -/
def pySlice {α : Type _} (l : List α) (i j : ℤ) : List α :=
  (l.drop (pyClamp l.length i)).take (pyClamp l.length j - pyClamp l.length i)

/-- `range(0, n)` as natural numbers (empty for `n <= 0`) (segeval/format.py:52,
segeval/window/pk.py:44, segeval/window/windowdiff.py:105). -/
def pyRange (n : ℤ) : List ℕ := List.range n.toNat

/-! ## Numbers -/

/-- Python numbers, tagged with their type.  Values are exact rationals: neither the 28-digit
`Decimal` context nor binary64 rounding is modelled here (segeval/similarity/weight.py:47,
segeval/agreement/__init__.py:175, segeval/agreement/pi.py:29-41). -/
inductive PyNum
  | int (n : ℤ)
  | dec (q : ℚ)
  | flt (q : ℚ)
  deriving DecidableEq

namespace PyNum

/-- The numeric value (segeval/agreement/__init__.py:175). -/
def val : PyNum → ℚ
  | int n => n
  | dec q => q
  | flt q => q

/-- `x + y`; `Decimal + float` is a `TypeError` (segeval/similarity/__init__.py:68). -/
def add : PyNum → PyNum → Py PyNum
  | int a, int b => .ok (int (a + b))
  | int a, dec b => .ok (dec (a + b))
  | dec a, int b => .ok (dec (a + b))
  | dec a, dec b => .ok (dec (a + b))
  | int a, flt b => .ok (flt (a + b))
  | flt a, int b => .ok (flt (a + b))
  | flt a, flt b => .ok (flt (a + b))
  | dec _, flt _ => .error .typeError
  | flt _, dec _ => .error .typeError

/-- `x - y`; `Decimal - float` is a `TypeError` (segeval/similarity/boundary.py:28, 34). -/
def sub : PyNum → PyNum → Py PyNum
  | int a, int b => .ok (int (a - b))
  | int a, dec b => .ok (dec (a - b))
  | dec a, int b => .ok (dec (a - b))
  | dec a, dec b => .ok (dec (a - b))
  | int a, flt b => .ok (flt (a - b))
  | flt a, int b => .ok (flt (a - b))
  | flt a, flt b => .ok (flt (a - b))
  | dec _, flt _ => .error .typeError
  | flt _, dec _ => .error .typeError

/-- `x * y`; `Decimal * float` is a `TypeError` (segeval/agreement/kappa.py:46-47,
segeval/ml/__init__.py:123-124). -/
def mul : PyNum → PyNum → Py PyNum
  | int a, int b => .ok (int (a * b))
  | int a, dec b => .ok (dec (a * b))
  | dec a, int b => .ok (dec (a * b))
  | dec a, dec b => .ok (dec (a * b))
  | int a, flt b => .ok (flt (a * b))
  | flt a, int b => .ok (flt (a * b))
  | flt a, flt b => .ok (flt (a * b))
  | dec _, flt _ => .error .typeError
  | flt _, dec _ => .error .typeError

/-- Division of `Decimal`s: `0/0` is `InvalidOperation`, `x/0` is `DivisionByZero`
(segeval/similarity/weight.py:47). -/
def decDiv (a b : ℚ) : Py PyNum :=
  if b = 0 then
    if a = 0 then .error .decimalInvalidOperation else .error .decimalDivisionByZero
  else .ok (dec (a / b))

/-- Division yielding a `float` (segeval/agreement/__init__.py:175). -/
def fltDiv (a b : ℚ) : Py PyNum :=
  if b = 0 then .error .zeroDivisionError else .ok (flt (a / b))

/-- `x / y` under `from __future__ import division` (or Python 3): int/int is a float
(segeval/agreement/__init__.py:175, segeval/similarity/boundary.py:32). -/
def truediv : PyNum → PyNum → Py PyNum
  | int a, int b => fltDiv a b
  | int a, dec b => decDiv a b
  | dec a, int b => decDiv a b
  | dec a, dec b => decDiv a b
  | int a, flt b => fltDiv a b
  | flt a, int b => fltDiv a b
  | flt a, flt b => fltDiv a b
  | dec _, flt _ => .error .typeError
  | flt _, dec _ => .error .typeError

/-- `Decimal(x)`: exact conversion of any number (segeval/agreement/pi.py:29). -/
def toDecimal (x : PyNum) : PyNum := dec x.val

/-- `x is 0`, the identity test of segeval/ml/__init__.py:73,89: only the int 0. -/
def isZeroObj : PyNum → Bool
  | int n => isInt n 0
  | _ => false

/-- Not a float (segeval/similarity/weight.py:47). -/
def NoFlt : PyNum → Prop
  | flt _ => False
  | _ => True

end PyNum

/-- Left fold of an exception-raising step (a Python `for` loop)
(segeval/agreement/__init__.py:150-152). -/
def forLoop {α σ : Type _} (l : List α) (s : σ) (f : σ → α → Py σ) : Py σ :=
  match l with
  | [] => .ok s
  | x :: xs =>
    match f s x with
    | .ok s' => forLoop xs s' f
    | .error e => .error e

/-- `sum(l)`: start from the int 0 (segeval/agreement/__init__.py:175). -/
def pySum (l : List PyNum) : Py PyNum := forLoop l (.int 0) PyNum.add

/-! ## Dicts

A dict is the list of its entries in insertion order, with at most one entry per key. -/

/-- `d.get(k)` (segeval/data/__init__.py:64-79). -/
def dictGet {κ α : Type _} [DecidableEq κ] (d : List (κ × α)) (k : κ) : Option α :=
  match d with
  | [] => none
  | (k', v) :: rest => if k' = k then some v else dictGet rest k

/-- `d[k] = v`: replace in place, or append (segeval/data/__init__.py:71, 76). -/
def dictSet {κ α : Type _} [DecidableEq κ] (d : List (κ × α)) (k : κ) (v : α) : List (κ × α) :=
  match d with
  | [] => [(k, v)]
  | (k', v') :: rest => if k' = k then (k', v) :: rest else (k', v') :: dictSet rest k v

/-- `d.keys()` (segeval/compute.py:43, 60-64). -/
def dictKeys {κ α : Type _} (d : List (κ × α)) : List κ := d.map Prod.fst

/-! ## Sets -/

/-- `sorted(s)` for a set of ints (insertion sort; the result is the unique ascending list)
(segeval/similarity/distance/multipleboundary.py:50-51). -/
def sortedZ (s : Finset ℤ) : List ℤ :=
  Quot.liftOn s.val (fun l => l.insertionSort (· ≤ ·)) (fun _ _ h =>
    List.Perm.eq_of_pairwise'
      (List.pairwise_insertionSort (r := (· ≤ ·)) _) (List.pairwise_insertionSort (r := (· ≤ ·)) _)
      (((List.perm_insertionSort _ _).trans h).trans (List.perm_insertionSort _ _).symm))

/-- Lexicographic order on pairs (used only to give one concrete iteration order) (not in
segeval/similarity/distance/multipleboundary.py). -/
def lexLe (p q : ℤ × ℤ) : Prop := p.1 < q.1 ∨ (p.1 = q.1 ∧ p.2 ≤ q.2)

instance : DecidableRel lexLe := fun p q => by unfold lexLe; infer_instance
instance : Std.Total lexLe := ⟨fun p q => by unfold lexLe; omega⟩
instance : IsTrans (ℤ × ℤ) lexLe := ⟨fun p q r => by unfold lexLe; omega⟩
instance : Std.Antisymm lexLe :=
  ⟨fun p q h1 h2 => by unfold lexLe at *; exact Prod.ext (by omega) (by omega)⟩

/-- The ascending list of a set of pairs (not in segeval/similarity/distance/multipleboundary.py).
-/
def sortedP (s : Finset (ℤ × ℤ)) : List (ℤ × ℤ) :=
  Quot.liftOn s.val (fun l => l.insertionSort lexLe) (fun _ _ h =>
    List.Perm.eq_of_pairwise'
      (List.pairwise_insertionSort (r := lexLe) _) (List.pairwise_insertionSort (r := lexLe) _)
      (((List.perm_insertionSort _ _).trans h).trans (List.perm_insertionSort _ _).symm))

theorem sortedP_coe (s : Finset (ℤ × ℤ)) : (sortedP s : Multiset (ℤ × ℤ)) = s.val := by
  rcases s with ⟨⟨l⟩, h⟩
  exact Multiset.coe_eq_coe.2 (List.perm_insertionSort lexLe l)

theorem sortedZ_coe (s : Finset ℤ) : (sortedZ s : Multiset ℤ) = s.val := by
  rcases s with ⟨⟨l⟩, h⟩
  exact Multiset.coe_eq_coe.2 (List.perm_insertionSort (· ≤ ·) l)

/-- The parts of a run that the language leaves open: in which order a `for` loop visits a set
(one choice per loop instance, named by a `site`), and whether two equal boundary-type objects met
at different moments are the same object.  Small ints are always the same object
(segeval/similarity/distance/multipleboundary.py:62, 67, 70, 106, 138). -/
structure Runtime where
  order : List ℕ → Finset ℤ → List ℤ
  order_perm : ∀ site s, (order site s).Perm (sortedZ s)
  orderP : List ℕ → Finset (ℤ × ℤ) → List (ℤ × ℤ)
  orderP_nodup : ∀ site s, (orderP site s).Nodup
  orderP_mem : ∀ site s x, x ∈ orderP site s ↔ x ∈ s
  sameObj : List ℕ → ℤ → Bool

/-- One concrete run: every set is visited in ascending order and equal boundary types are always
the same object.  Used for examples and tests only; theorems quantify over every `Runtime` (cf.
segeval/similarity/distance/multipleboundary.py:62, 67, 70, 106, 138). -/
def Runtime.ascending : Runtime where
  order _ s := sortedZ s
  order_perm _ _ := List.Perm.refl _
  orderP _ s := sortedP s
  orderP_nodup _ s := by
    have h := s.nodup
    rw [← sortedP_coe s] at h
    exact Multiset.coe_nodup.1 h
  orderP_mem _ s x := by
    rw [← Multiset.mem_coe, sortedP_coe]; exact Iff.rfl
  sameObj _ _ := true

end SegEval
