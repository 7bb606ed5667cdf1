import Mathlib.Data.Int.Log
import Mathlib.Data.Rat.Floor
import Verif.Model.Window

/-!
# Rounded arithmetic of Python's `Decimal` and `float`

The base model computes with exact rationals.  Here every arithmetic result is rounded, as in the
default decimal context (28 significant digits, ties to even) and in binary64.  Not modelled:
exponent limits (overflow, underflow, subnormal numbers).
-/

namespace SegEval

/-- Round to `p` significant digits in base `b`, ties to even (cf.
segeval/agreement/__init__.py:175, segeval/agreement/pi.py:29-41, segeval/util/math.py:20-43). -/
def roundSig (b p : ℕ) (q : ℚ) : ℚ :=
  if q = 0 then 0
  else
    (roundHalfEven (q / (b : ℚ) ^ (Int.log b |q| + 1 - (p : ℤ))) : ℚ) *
      (b : ℚ) ^ (Int.log b |q| + 1 - (p : ℤ))

/-- How the results of arithmetic are rounded: `Decimal` operations, `float` operations, and
`Decimal ** 2` (arithmetic throughout, e.g. segeval/agreement/__init__.py:175,
segeval/agreement/pi.py:29-41, segeval/util/math.py:20-43). -/
structure Rounding where
  dec : ℚ → ℚ
  flt : ℚ → ℚ
  sq : ℚ → ℚ

/-- No rounding: the base model (cf. segeval/agreement/__init__.py:175,
segeval/agreement/pi.py:29-41, segeval/util/math.py:20-43). -/
def Rounding.exact : Rounding := ⟨id, id, id⟩

/-- CPython with the default decimal context.  `Decimal ** 2` (libmpdec `_mpd_qpow_int`) multiplies
with three more digits and rounds the result again (cf. segeval/agreement/__init__.py:175,
segeval/agreement/pi.py:29-41, segeval/util/math.py:20-43). -/
def Rounding.cpython : Rounding :=
  ⟨roundSig 10 28, roundSig 2 53, fun q => roundSig 10 28 (roundSig 10 31 q)⟩

namespace PyNum

/-- Round the result of an operation; ints are exact (cf. segeval/agreement/__init__.py:175,
segeval/agreement/pi.py:29-41, segeval/util/math.py:20-43). -/
def rnd (ρ : Rounding) : PyNum → PyNum
  | int n => int n
  | dec q => dec (ρ.dec q)
  | flt q => flt (ρ.flt q)

/-- `x + y`, rounded (cf. segeval/agreement/__init__.py:175, segeval/agreement/pi.py:29-41,
segeval/util/math.py:20-43). -/
def addR (ρ : Rounding) (x y : PyNum) : Py PyNum :=
  match x.add y with
  | .ok z => .ok (z.rnd ρ)
  | .error e => .error e

/-- `x - y`, rounded (cf. segeval/agreement/__init__.py:175, segeval/agreement/pi.py:29-41,
segeval/util/math.py:20-43). -/
def subR (ρ : Rounding) (x y : PyNum) : Py PyNum :=
  match x.sub y with
  | .ok z => .ok (z.rnd ρ)
  | .error e => .error e

/-- `x * y`, rounded (cf. segeval/agreement/__init__.py:175, segeval/agreement/pi.py:29-41,
segeval/util/math.py:20-43). -/
def mulR (ρ : Rounding) (x y : PyNum) : Py PyNum :=
  match x.mul y with
  | .ok z => .ok (z.rnd ρ)
  | .error e => .error e

/-- `x / y`, rounded (cf. segeval/agreement/__init__.py:175, segeval/agreement/pi.py:29-41,
segeval/util/math.py:20-43). -/
def truedivR (ρ : Rounding) (x y : PyNum) : Py PyNum :=
  match x.truediv y with
  | .ok z => .ok (z.rnd ρ)
  | .error e => .error e

/-- `x ** 2`, rounded (cf. segeval/agreement/__init__.py:175, segeval/agreement/pi.py:29-41,
segeval/util/math.py:20-43). -/
def sqR (ρ : Rounding) : PyNum → PyNum
  | int n => int (n * n)
  | dec q => dec (ρ.sq (q * q))
  | flt q => flt (ρ.flt (q * q))

end PyNum

/-- `sum(l)` with rounded additions (cf. segeval/agreement/__init__.py:175,
segeval/agreement/pi.py:29-41, segeval/util/math.py:20-43). -/
def pySumR (ρ : Rounding) (l : List PyNum) : Py PyNum := forLoop l (.int 0) (PyNum.addR ρ)

end SegEval
