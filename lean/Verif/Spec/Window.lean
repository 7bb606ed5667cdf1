import Verif.Spec.Format
import Verif.Model.Window

/-!
# What the window metrics should mean

`ph`, `pr` are patterns: "is there a boundary after unit `i`?".
-/

namespace SegEval.Spec

open SegEval

/-- The number of boundaries between unit `i` and unit `i + k`. -/
def between (pat : List Bool) (i k : ℕ) : ℕ := ((pat.drop i).take k).count true

/-- The probe of Pk at unit `i` is in error: one segmentation puts units `i` and `i + k` in one
segment and the other does not. -/
def PkError (ph pr : List Bool) (k i : ℕ) : Prop := ¬ (between ph i k = 0 ↔ between pr i k = 0)

/-- The window of WindowDiff at unit `i` is in error: the numbers of boundaries differ. -/
def WdError (ph pr : List Bool) (k i : ℕ) : Prop := between ph i k ≠ between pr i k

instance (ph pr : List Bool) (k i : ℕ) : Decidable (PkError ph pr k i) := by
  unfold PkError; infer_instance
instance (ph pr : List Bool) (k i : ℕ) : Decidable (WdError ph pr k i) := by
  unfold WdError; infer_instance

/-- The number of windows of `k + 1` units in a document of `n` units. -/
def windows (n k : ℕ) : ℕ := n - k

/-- The windows in error. -/
def pkErrors (ph pr : List Bool) (k : ℕ) : Finset ℕ :=
  (Finset.range (windows (pr.length + 1) k)).filter (PkError ph pr k)
def wdErrors (ph pr : List Bool) (k : ℕ) : Finset ℕ :=
  (Finset.range (windows (pr.length + 1) k)).filter (WdError ph pr k)

/-- The pattern with `k` phantom units before and after, each block being a segment. -/
def padded (k : ℕ) (pat : List Bool) : List Bool :=
  List.replicate (k - 1) false ++ [true] ++ pat ++ [true] ++ List.replicate (k - 1) false

/-- In the position format, neighbouring units with the same label carry the same object (always so
for labels up to 256). -/
def Neighbours : BoundaryFormat → Seg → Prop
  | .position, .ints _ l => ∀ (i : ℕ) (x y : Obj), l[i]? = some x → l[i + 1]? = some y →
      x.val = y.val → x.is y = true
  | _, _ => True

/-- In the position format, units with the same label are in one segment and carry the same
object. -/
def Unrepeated : BoundaryFormat → Seg → Prop
  | .position, .ints _ l => ∀ (i j : ℕ) (x y : Obj), i < j → l[i]? = some x → l[j]? = some y →
      x.val = y.val → x.is y = true ∧ ∀ m, i ≤ m → m < j → ¬ ChangeAt (l.map Obj.val) m
  | _, _ => True

/-- The fix of Lamprier et al. can be applied: the labels are in a tuple and the first and last
are not 0. -/
def Paddable : BoundaryFormat → Seg → Prop
  | .position, .ints tup l => tup = true ∧ (∀ x, l.head? = some x → x.val ≠ 0) ∧
      ∀ x, l.getLast? = some x → x.val ≠ 0
  | _, _ => True

/-- The formats of the window metrics. -/
def WindowFormat (fmt : BoundaryFormat) : Prop := fmt = .mass ∨ fmt = .nltk ∨ fmt = .position

/-- The window size in use: the one asked for, or half the mean segment size of the reference,
rounded, and at least 2. -/
def UsesWindow (kw : WinKw) (pr : List Bool) (w : ℤ) : Prop :=
  match kw.windowSize with
  | some w' => w = w'
  | none => w = max 2 (kw.fncRound (((pr.length : ℚ) + 1) / ((pr.count true : ℚ) + 1) / 2))

/-- A nested collection holds these masses. -/
inductive HasMasses : MassTree → List ℤ → Prop
  | leaf (ms : List ℤ) : HasMasses (.leaf ms) ms
  | node (cs : List MassTree) (ls : List (List ℤ)) (h : List.Forall₂ HasMasses cs ls) :
      HasMasses (.node cs) ls.flatten

end SegEval.Spec
