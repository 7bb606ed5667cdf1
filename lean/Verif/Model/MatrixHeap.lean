import Verif.Model.ML
import Mathlib.Logic.Function.Basic

/-!
# Several confusion matrices and the sets their `classes()` return

`Model/ML` treats one matrix as a value.  Here matrices are objects and the sets returned by
`classes()` are objects too, which the caller can keep and change.  `ConfusionMatrix.__classes__` is
an attribute of the class (segeval/ml/__init__.py:212), so all matrices start with one and the same set.
-/

namespace SegEval

/-- segeval/ml/__init__.py:206-252 a matrix object.  `own` is the address of the set in its instance
attribute `__classes__`, absent as long as the attribute of the class is seen. -/
structure MObj (κ : Type _) where
  rows : List (κ × List (κ × PyNum)) := []
  own : Option ℕ := none
  dirty : Bool := false

/-- All matrices of a run (those not yet made are like ones just made: `ConfusionMatrix()` does
nothing but make the object) and all sets; the set of the class has address 0
(segeval/ml/__init__.py:212)
and `next` is the first address not in use. -/
structure MWorld (κ : Type _) where
  mats : ℕ → MObj κ := fun _ => {}
  sets : ℕ → Finset κ := fun _ => ∅
  next : ℕ := 1

/-- What a caller can do: read and write cells of a matrix, ask for its classes, or change a set
that it was given (`add`, `discard`, `clear` and so on; `S` is the content afterwards)
(segeval/ml/__init__.py:201-203, 218-252). -/
inductive WOp (κ : Type _)
  | look (i : ℕ) (p : κ)
  | read (i : ℕ) (p a : κ)
  | write (i : ℕ) (p a : κ) (v : PyNum)
  | classes (i : ℕ)
  | change (address : ℕ) (S : Finset κ)

/-- What the caller gets: nothing, a number, or a set object with its present content
(segeval/ml/__init__.py:218-252). -/
inductive WOut (κ : Type _)
  | nothing
  | num (v : PyNum)
  | set (address : ℕ) (content : Finset κ)
  deriving DecidableEq

variable {κ : Type _} [DecidableEq κ]

/-- Matrix `i` as a value: attribute lookup falls back on the class
(segeval/ml/__init__.py:212-213). -/
def MWorld.view (w : MWorld κ) (i : ℕ) : CM κ :=
  ⟨(w.mats i).rows, w.sets ((w.mats i).own.getD 0), (w.mats i).dirty⟩

/-- Matrix `i` gets the rows and the flag of `m` (segeval/ml/__init__.py:201-203, 218-252). -/
def MWorld.put (w : MWorld κ) (i : ℕ) (m : CM κ) : MWorld κ :=
  { w with mats := Function.update w.mats i { w.mats i with rows := m.rows, dirty := m.dirty } }

/-- One step: segeval/ml/__init__.py:218-239 for `look`, `read` and `write` (as in `Model/ML`) and
segeval/ml/__init__.py:241-252 for `classes()`: a new set object if the flag is up, else the one it
has. -/
def MWorld.step (w : MWorld κ) : WOp κ → WOut κ × MWorld κ
  | .look i p => (.nothing, w.put i ((w.view i).touch p))
  | .read i p a => (.num ((w.view i).read p a).1, w.put i ((w.view i).read p a).2)
  | .write i p a v => (.nothing, w.put i ((w.view i).write p a v))
  | .classes i =>
    if (w.mats i).dirty then
      (.set w.next (w.view i).labels,
        { mats := Function.update w.mats i { w.mats i with own := some w.next, dirty := false }
          sets := Function.update w.sets w.next (w.view i).labels
          next := w.next + 1 })
    else (.set ((w.mats i).own.getD 0) (w.view i).cached, w)
  | .change address S => (.nothing, { w with sets := Function.update w.sets address S })

/-- A run: what the caller got, and the world afterwards (segeval/ml/__init__.py:206-252). -/
def MWorld.run (w : MWorld κ) : List (WOp κ) → List (WOut κ) × MWorld κ
  | [] => ([], w)
  | op :: ops => ((w.step op).1 :: ((w.step op).2.run ops).1, ((w.step op).2.run ops).2)

end SegEval
