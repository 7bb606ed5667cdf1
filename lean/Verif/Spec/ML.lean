import Verif.Model.ML
import Verif.Spec.Similarity
import Mathlib.Algebra.BigOperators.Finprod

/-!
# What confusion matrices and their metrics should mean
-/

namespace SegEval.Spec

open SegEval

variable {κ : Type _} [DecidableEq κ]

/-- A metric query on a matrix. -/
inductive Query (κ : Type _)
  | precision (classification : Option κ) (version : Average)
  | recall (classification : Option κ) (version : Average)
  | fmeasure (classification : Option κ) (beta : ℚ) (version : Average)

/-- The class a query asks about. -/
def Query.about : Query κ → Option κ
  | .precision c _ => c
  | .recall c _ => c
  | .fmeasure c _ _ => c

/-- The averaging of a query. -/
def Query.version : Query κ → Average
  | .precision _ v => v
  | .recall _ v => v
  | .fmeasure _ _ v => v

/-- Make the query. -/
def Query.run (o : ClassOrder κ) (site : List ℕ) (m : CM κ) : Query κ → MPy κ PyNum
  | .precision c v => SegEval.precision o site c v m
  | .recall c v => SegEval.recall o site c v m
  | .fmeasure c b v => SegEval.fmeasure o site c b v m

/-- The number a query returned, if it returned. -/
def answer (r : MPy κ PyNum) : Option ℚ :=
  match r with
  | .ok (v, _) => some v.val
  | .error _ => none

/-- One thing a program can do with a matrix. -/
inductive MOp (κ : Type _)
  | look (p : κ)                       -- m[p]
  | read (p a : κ)                     -- m[p][a]
  | write (p a : κ) (v : PyNum)        -- m[p][a] = v
  | incr (p a : κ) (v : PyNum)         -- m[p][a] += v
  | classes                            -- m.classes()
  | ask (q : Query κ)

/-- Do it. -/
def MOp.run (o : ClassOrder κ) (site : List ℕ) (m : CM κ) : MOp κ → Py (CM κ)
  | .look p => .ok (m.touch p)
  | .read p a => .ok (m.read p a).2
  | .write p a v => .ok (m.write p a v)
  | .incr p a v => m.incr p a v
  | .classes => .ok m.classes.2
  | .ask q => (q.run o site m).map Prod.snd

/-- Do them all. -/
def history (o : ClassOrder κ) (k : ℕ) (m : CM κ) : List (MOp κ) → Py (CM κ)
  | [] => .ok m
  | op :: ops =>
    match op.run o [k] m with
    | .error e => .error e
    | .ok m' => history o (k + 1) m' ops

/-- A matrix some program can make (no operation having raised). -/
def Reachable (m : CM κ) : Prop := ∃ (o : ClassOrder κ) (k : ℕ) (ops : List (MOp κ)),
  history o k {} ops = .ok m

/-- The value read from a cell. -/
def cell (m : CM κ) (p a : κ) : PyNum := (m.read p a).1

/-- What one operation does to the table of values. -/
def effect (f : κ → κ → PyNum) : MOp κ → κ → κ → PyNum
  | .write p a v => fun p' a' => if p' = p ∧ a' = a then v else f p' a'
  | .incr p a v => fun p' a' => if p' = p ∧ a' = a then
      (match (f p a).add v with | .ok x => x | .error _ => f p a) else f p' a'
  | _ => f

/-- `l` labels a row or a column of the matrix. -/
def HasLabel (m : CM κ) (l : κ) : Prop :=
  ∃ r ∈ m.rows, r.1 = l ∨ ∃ c ∈ r.2, c.1 = l

/-- `l` labels a row that has cells, or a column. -/
def InUse (m : CM κ) (l : κ) : Prop :=
  ∃ r ∈ m.rows, (r.1 = l ∧ r.2 ≠ []) ∨ ∃ c ∈ r.2, c.1 = l

/-- No cell holds a float. -/
def NoFloats (m : CM κ) : Prop := ∀ p a, (cell m p a).NoFlt

/-- No cell is negative. -/
def NonNeg (m : CM κ) : Prop := ∀ p a, 0 ≤ (cell m p a).val

/-- The entry of a cell as a number. -/
def entry (m : CM κ) (p a : κ) : ℚ := (cell m p a).val

/-- True positives, false positives and false negatives of a class; rows are predictions. -/
noncomputable def truePos (m : CM κ) (c : κ) : ℚ := entry m c c
noncomputable def falsePos (m : CM κ) (c : κ) : ℚ := ∑ᶠ a, if a = c then 0 else entry m c a
noncomputable def falseNeg (m : CM κ) (c : κ) : ℚ := ∑ᶠ p, if p = c then 0 else entry m p c

/-- The sum of the diagonal and the sum of all cells. -/
noncomputable def diagonal (m : CM κ) : ℚ := ∑ᶠ c, entry m c c
noncomputable def grandTotal (m : CM κ) : ℚ := ∑ᶠ p, ∑ᶠ a, entry m p a

end SegEval.Spec

namespace SegEval.Spec

open SegEval

variable {κ : Type _} [DecidableEq κ]

/-- The labels an operation names. -/
def MOp.names : MOp κ → κ → Prop
  | .look p, l => l = p
  | .read p a, l => l = p ∨ l = a
  | .write p a _, l => l = p ∨ l = a
  | .incr p a _, l => l = p ∨ l = a
  | .classes, _ => False
  | .ask q, l => q.about = some l

/-- The value the weight function gives to one transposition (0 where it raises). -/
def credit (w : Weights) (nT : ℤ) (t : Transposition) : ℚ :=
  match w.t [t] nT with
  | .ok v => v.val
  | .error _ => 0

/-- The number of positions where both strings place a boundary of type `t`. -/
def matchesOf (a b : BString) (t : ℤ) : ℕ :=
  ((Finset.range a.length).filter (fun p => t ∈ typesAt a p ∩ typesAt b p)).card

end SegEval.Spec
