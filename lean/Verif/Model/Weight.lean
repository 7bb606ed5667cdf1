import Verif.Model.Edit

/-!
# Model of `segeval/similarity/weight.py`
-/

namespace SegEval

/-- segeval/similarity/weight.py:9-13 `weight_a`. -/
def weightA (additions : List Addition) : Py PyNum := .ok (.int additions.length)

/-- segeval/similarity/weight.py:16-21 `weight_s`. -/
def weightS (substitutions : List Substitution) (_maxS _minS : ℤ) : Py PyNum :=
  .ok (.int substitutions.length)

/-- segeval/similarity/weight.py:32-37 `weight_t`. -/
def weightT (transpositions : List Transposition) (_maxN : ℤ) : Py PyNum :=
  .ok (.int transpositions.length)

/-- segeval/similarity/weight.py:44-46 the sum over the first two fields of each tuple. -/
def spanSum : List (ℤ × ℤ) → ℤ
  | [] => 0
  | p :: ps => |p.1 - p.2| + spanSum ps

/-- segeval/similarity/weight.py:40-47 `weight_t_scale` on the first two fields of its tuples. -/
def scalePairs (pairs : List (ℤ × ℤ)) (maxN : ℤ) : Py PyNum :=
  PyNum.truediv (.dec (spanSum pairs)) (.int maxN)

/-- segeval/similarity/weight.py:40-47 `weight_t_scale` applied to transpositions. -/
def weightTScale (transpositions : List Transposition) (maxN : ℤ) : Py PyNum :=
  scalePairs (transpositions.map (fun t => ((t.start : ℤ), (t.stop : ℤ)))) maxN

/-- segeval/similarity/weight.py:24-29 `weight_s_scale`. -/
def weightSScale (substitutions : List Substitution) (maxS minS : ℤ) : Py PyNum :=
  scalePairs (substitutions.map (fun s => (s.typeA, s.typeB))) (maxS - minS + 1)

/-- The `weight` keyword argument: a triple of functions (segeval/similarity/__init__.py:21, 62). -/
structure Weights where
  a : List Addition → Py PyNum
  s : List Substitution → ℤ → ℤ → Py PyNum
  t : List Transposition → ℤ → Py PyNum

/-- segeval/similarity/__init__.py:21 the default weights. -/
def Weights.default : Weights := ⟨weightA, weightSScale, weightTScale⟩

/-- The unweighted functions offered by segeval/similarity/weight.py:9-37. -/
def Weights.unscaled : Weights := ⟨weightA, weightS, weightT⟩

end SegEval
