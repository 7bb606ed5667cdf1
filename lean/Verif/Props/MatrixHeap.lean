import Verif.Lemmas.MatrixHeap
import Verif.Props.ML

/-!
# C103: confusion matrices are independent of each other
-/

namespace SegEval.Props

open SegEval Spec

/-- C103: what a caller sees of a matrix, and the matrix it is left with, are the same whether or
not it works on other matrices in between; and that matrix is the one of `Model/ML`. -/
theorem C103_independent {κ : Type} [DecidableEq κ] (ops : List (WOp κ))
    (h : ∀ op ∈ ops, ¬ WOp.changes op) (j : ℕ) :
    seenOf j ops (({} : MWorld κ).run ops).1 =
        seenOf j (opsOn j ops) (({} : MWorld κ).run (opsOn j ops)).1 ∧
      (({} : MWorld κ).run ops).2.view j = (opsOn j ops).foldl (fun m op => WOp.value op m) {} := by
  obtain ⟨h1, h2⟩ := run_only (wf_start (κ := κ)) wf_start j rfl ops (by
    intro pre a S post e
    exact absurd trivial (h (.change a S) (by rw [e]; simp)))
  refine ⟨h1, h2.trans ?_⟩
  rw [view_run_only]
  · rfl
  · intro op hop
    simpa [opsOn] using (List.mem_filter.1 hop).2

example : seenOf 1 [.classes 0, .write 0 3 3 (.int 1), .write 1 4 5 (.int 2), .classes 0, .read 1 4 5,
      .classes 1] (({} : MWorld ℤ).run [.classes 0, .write 0 3 3 (.int 1), .write 1 4 5 (.int 2),
      .classes 0, .read 1 4 5, .classes 1]).1 =
    [none, some (.inl (.int 2)), some (.inr {4, 5})] := by decide +kernel

/-- C103 when the caller also changes sets it was given by `classes()`: as long as those sets came
from other matrices and are not the set every new matrix has, nothing shows.

Missing: the set of new matrices, for which the claim is false (`C103_shared`). -/
theorem C103_changed_partial {κ : Type} [DecidableEq κ] (ops : List (WOp κ)) (j : ℕ)
    (h : ∀ pre a S post, ops = pre ++ .change a S :: post → a ≠ 0 ∧ GivenByOther j a pre) :
    seenOf j ops (({} : MWorld κ).run ops).1 =
        seenOf j (opsOn j ops) (({} : MWorld κ).run (opsOn j ops)).1 ∧
      (({} : MWorld κ).run ops).2.view j = (opsOn j ops).foldl (fun m op => WOp.value op m) {} := by
  obtain ⟨h1, h2⟩ := run_only (wf_start (κ := κ)) wf_start j rfl ops (by
    intro pre a S post e
    obtain ⟨ha, p1, i, p2, T, rfl, hij, ho⟩ := h pre a S post e
    rw [run_append]
    exact foreign_addr (foreign_run (foreign_classes (wf_run wf_start p1) hij ha ho) p2))
  refine ⟨h1, h2.trans ?_⟩
  rw [view_run_only]
  · rfl
  · intro op hop
    simpa [opsOn] using (List.mem_filter.1 hop).2

/-- The set given by a matrix that was written to is not the set of new matrices. -/
theorem C103_own_set {κ : Type} [DecidableEq κ] (pre mid : List (WOp κ)) (i : ℕ) (p a : κ)
    (v : PyNum) (address : ℕ) (S : Finset κ)
    (h : ((({} : MWorld κ).run (pre ++ .write i p a v :: mid)).2.step (.classes i)).1 =
      .set address S) : address ≠ 0 := by
  have hw := wf_run (wf_start (κ := κ)) (pre ++ .write i p a v :: mid)
  have hs := settled_run (.inl (settled_write (({} : MWorld κ).run pre).2 i p a v)) mid
  have e : ((((({} : MWorld κ).run pre).2.step (.write i p a v)).2).run mid).2 =
      (({} : MWorld κ).run (pre ++ .write i p a v :: mid)).2 := by rw [run_append]; rfl
  rw [e] at hs
  generalize (({} : MWorld κ).run (pre ++ .write i p a v :: mid)).2 = w at h hw hs
  simp only [MWorld.step] at h
  split at h
  · simp only [WOut.set.injEq] at h
    rw [← h.1]; exact hw.pos.ne'
  · simp only [WOut.set.injEq] at h
    rcases hs with hs | hs
    · contradiction
    · cases ho : (w.mats i).own with
      | none => exact absurd ho hs
      | some b => rw [ho] at h; rw [← h.1]; exact (hw.used i b ho).1.ne'

/-- The hypotheses of `C103_changed_partial` can be met with an effective change: matrix 0 then
answers wrongly, matrix 1 does not notice. -/
example : (({} : MWorld ℤ).run [.write 0 3 3 (.int 1), .write 1 4 5 (.int 2), .classes 0,
      .change 1 {8, 9}, .classes 0, .classes 1]).1 =
    [.nothing, .nothing, .set 1 {3}, .nothing, .set 1 {8, 9}, .set 2 {4, 5}] := by decide +kernel

example (pre : List (WOp ℤ)) (a : ℕ) (S : Finset ℤ) (post : List (WOp ℤ))
    (e : [.write 0 3 3 (.int 1), .write 1 4 5 (.int 2), .classes 0, .change 1 {8, 9}, .classes 0,
      .classes 1] = pre ++ .change a S :: post) : a ≠ 0 ∧ GivenByOther 1 a pre := by
  rcases pre with _ | ⟨x1, _ | ⟨x2, _ | ⟨x3, _ | ⟨x4, _ | ⟨x5, _ | ⟨x6, _ | ⟨x7, _⟩⟩⟩⟩⟩⟩⟩ <;>
    simp at e
  obtain ⟨rfl, rfl, rfl, ⟨rfl, rfl⟩, rfl⟩ := e
  exact ⟨by decide, [.write 0 3 3 (.int 1), .write 1 4 5 (.int 2)], 0, [], {3}, rfl, by decide,
    by decide +kernel⟩

/-- C103 is false: `classes()` of a new matrix gives the set of the class itself, and what is put
into it is a class of every matrix not written to, made before or after. -/
theorem C103_shared {κ : Type} [DecidableEq κ] (S : Finset κ) (i j : ℕ) :
    (({} : MWorld κ).run [.classes i, .change 0 S, .classes j]).1 =
      [.set 0 ∅, .nothing, .set 0 S] := by
  simp [MWorld.run, MWorld.step, MWorld.view]

/-- Whatever was done to sets, `classes()` after a cell was written gives exactly the labels named
in operations on the matrix. -/
theorem C103_recovers {κ : Type} [DecidableEq κ] (ops : List (WOp κ)) (j : ℕ) (p a : κ) (v : PyNum) :
    ∃ address S, ((({} : MWorld κ).run (ops ++ [.write j p a v])).2.step (.classes j)).1 =
        .set address S ∧
      ∀ l, l ∈ S ↔ l = p ∨ l = a ∨ ∃ op ∈ ops, WOp.on op = some j ∧ WOp.names op l := by
  have hs := settled_write (({} : MWorld κ).run ops).2 j p a v
  have hl := label_run ({} : MWorld κ) (ops ++ [.write j p a v]) j
  rw [run_append] at hl ⊢
  refine ⟨(((({} : MWorld κ).run ops).2.run [.write j p a v]).2).next,
    (((({} : MWorld κ).run ops).2.run [.write j p a v]).2.view j).labels, ?_, fun l => ?_⟩
  · simp only [MWorld.step]
    exact congrArg Prod.fst (if_pos hs)
  · rw [mem_labels, hl]
    have h0 : ¬ HasLabel (({} : MWorld κ).view j) l := by
      rintro ⟨r, hr, -⟩; simp [MWorld.view] at hr
    simp only [h0, false_or, List.mem_append, List.mem_singleton, or_and_right, exists_or,
      exists_eq_left]
    rw [or_comm, or_assoc.symm]
    simp [WOp.on, WOp.names]

/-- Cells are never shared: whatever else is done, sets being changed included, reading a cell gives
the value last written to that cell of that matrix, and 0 if there is none. -/
theorem C103_cells {κ : Type} [DecidableEq κ] (ops : List (WOp κ)) (j : ℕ) (p a : κ) :
    ((({} : MWorld κ).run ops).2.step (.read j p a)).1 = .num (lastWritten j p a ops) := by
  have := cell_run ({} : MWorld κ) ops j p a
  rw [show cell (({} : MWorld κ).view j) p a = .int 0 from by
    rw [cell_eq]; simp [MWorld.view, CM.row, dictGet]] at this
  simp only [MWorld.step]
  exact congrArg WOut.num this

example : lastWritten 0 3 3 [.write 0 3 3 (.int 1), .write 1 3 3 (.int 7), .change 0 {5},
    .write 0 3 3 (.int 2), .classes 0, .write 0 3 4 (.int 9)] = .int 2 := by decide +kernel

end SegEval.Props
