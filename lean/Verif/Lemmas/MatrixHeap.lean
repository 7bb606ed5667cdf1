import Verif.Spec.MatrixHeap
import Verif.Lemmas.MLBed

/-!
# Lemmas about several confusion matrices
-/

namespace SegEval

open SegEval.Spec

variable {κ : Type _} [DecidableEq κ]

/-- Sets of instances are in use, are not that of the class and belong to one matrix only. -/
structure MWorld.Wf (w : MWorld κ) : Prop where
  pos : 0 < w.next
  used : ∀ i a, (w.mats i).own = some a → 0 < a ∧ a < w.next
  apart : ∀ i j a, (w.mats i).own = some a → (w.mats j).own = some a → i = j

omit [DecidableEq κ] in
theorem wf_start : MWorld.Wf ({} : MWorld κ) := by
  refine ⟨by simp, ?_, ?_⟩ <;> intros <;> simp_all

omit [DecidableEq κ] in
theorem put_own (w : MWorld κ) (i j : ℕ) (m : CM κ) : ((w.put i m).mats j).own = (w.mats j).own := by
  simp only [MWorld.put, Function.update_apply]
  split
  · rename_i h; rw [h]
  · rfl

omit [DecidableEq κ] in
theorem wf_put {w : MWorld κ} (h : w.Wf) (i : ℕ) (m : CM κ) : (w.put i m).Wf := by
  refine ⟨h.pos, ?_, ?_⟩
  · intro j a ha; rw [put_own] at ha; exact h.used j a ha
  · intro j k a ha hb; rw [put_own] at ha hb; exact h.apart j k a ha hb

theorem wf_step {w : MWorld κ} (h : w.Wf) (op : WOp κ) : (w.step op).2.Wf := by
  cases op with
  | look i p => exact wf_put h _ _
  | read i p a => exact wf_put h _ _
  | write i p a v => exact wf_put h _ _
  | change a S => exact ⟨h.pos, h.used, h.apart⟩
  | classes i =>
    simp only [MWorld.step]
    split
    · refine ⟨Nat.succ_pos _, ?_, ?_⟩
      · intro j a ha
        simp only [Function.update_apply] at ha
        split at ha
        · simp only [Option.some.injEq] at ha
          subst ha; exact ⟨h.pos, Nat.lt_succ_self _⟩
        · exact ⟨(h.used j a ha).1, Nat.lt_succ_of_lt (h.used j a ha).2⟩
      · intro j k a ha hb
        simp only [Function.update_apply] at ha hb
        split at ha <;> split at hb
        · rename_i h1 h2; rw [h1, h2]
        · simp only [Option.some.injEq] at ha
          subst ha; exact absurd (h.used k _ hb).2 (lt_irrefl _)
        · simp only [Option.some.injEq] at hb
          subst hb; exact absurd (h.used j _ ha).2 (lt_irrefl _)
        · exact h.apart j k a ha hb
    · exact h

theorem wf_run {w : MWorld κ} (h : w.Wf) (ops : List (WOp κ)) : (w.run ops).2.Wf := by
  induction ops generalizing w with
  | nil => exact h
  | cons op ops ih => exact ih (wf_step h op)

theorem run_append (w : MWorld κ) (xs ys : List (WOp κ)) :
    (w.run (xs ++ ys)).2 = ((w.run xs).2.run ys).2 := by
  induction xs generalizing w with
  | nil => rfl
  | cons op xs ih => exact ih _

omit [DecidableEq κ] in
theorem view_put_self (w : MWorld κ) (i : ℕ) (m : CM κ) :
    (w.put i m).view i = ⟨m.rows, (w.view i).cached, m.dirty⟩ := by
  simp [MWorld.put, MWorld.view]

omit [DecidableEq κ] in
theorem view_put_other (w : MWorld κ) {i j : ℕ} (h : j ≠ i) (m : CM κ) :
    (w.put i m).view j = w.view j := by
  simp [MWorld.put, MWorld.view, Function.update_of_ne h]

/-- The address of the set matrix `j` has now. -/
def MWorld.addr (w : MWorld κ) (j : ℕ) : ℕ := (w.mats j).own.getD 0

omit [DecidableEq κ] in
theorem addr_lt {w : MWorld κ} (h : w.Wf) (j : ℕ) : w.addr j < w.next := by
  unfold MWorld.addr
  cases e : (w.mats j).own with
  | none => exact h.pos
  | some a => exact (h.used j a e).2

/-- Operations on other matrices, and changes of other sets, leave a matrix as it is. -/
theorem view_step_other {w : MWorld κ} (h : w.Wf) {op : WOp κ} {j : ℕ} (ho : WOp.on op ≠ some j)
    (hc : ∀ a S, op = .change a S → a ≠ w.addr j) : (w.step op).2.view j = w.view j := by
  cases op with
  | look i p => exact view_put_other w (fun e => ho (by simp [WOp.on, e])) _
  | read i p a => exact view_put_other w (fun e => ho (by simp [WOp.on, e])) _
  | write i p a v => exact view_put_other w (fun e => ho (by simp [WOp.on, e])) _
  | change a S =>
    have := hc a S rfl
    simp only [MWorld.step, MWorld.view]
    rw [Function.update_of_ne]
    exact fun e => this e.symm
  | classes i =>
    have hij : j ≠ i := fun e => ho (by simp [WOp.on, e])
    simp only [MWorld.step]
    split
    · simp only [MWorld.view, Function.update_of_ne hij]
      rw [Function.update_of_ne]
      exact (addr_lt h j).ne
    · rfl

theorem addr_step_other {w : MWorld κ} {op : WOp κ} {j : ℕ} (ho : WOp.on op ≠ some j) :
    (w.step op).2.addr j = w.addr j := by
  cases op with
  | look i p => simp only [MWorld.step, MWorld.addr, put_own]
  | read i p a => simp only [MWorld.step, MWorld.addr, put_own]
  | write i p a v => simp only [MWorld.step, MWorld.addr, put_own]
  | change a S => rfl
  | classes i =>
    have hij : j ≠ i := fun e => ho (by simp [WOp.on, e])
    simp only [MWorld.step]
    split
    · simp only [MWorld.addr, Function.update_of_ne hij]
    · rfl

/-- An operation on a matrix depends on that matrix only. -/
theorem step_same {w w' : MWorld κ} {op : WOp κ} {j : ℕ} (ho : WOp.on op = some j)
    (hv : w.view j = w'.view j) :
    WOut.seen (w.step op).1 = WOut.seen (w'.step op).1 ∧
      (w.step op).2.view j = (w'.step op).2.view j := by
  have hd : (w.mats j).dirty = (w'.mats j).dirty := congrArg CM.dirty hv
  cases op with
  | look i p =>
    obtain rfl : i = j := by simpa [WOp.on] using ho
    simp only [MWorld.step, WOut.seen, view_put_self, hv, and_self]
  | read i p a =>
    obtain rfl : i = j := by simpa [WOp.on] using ho
    simp only [MWorld.step, WOut.seen, view_put_self, hv, and_self]
  | write i p a v =>
    obtain rfl : i = j := by simpa [WOp.on] using ho
    simp only [MWorld.step, WOut.seen, view_put_self, hv, and_self]
  | change a S => simp [WOp.on] at ho
  | classes i =>
    obtain rfl : i = j := by simpa [WOp.on] using ho
    simp only [MWorld.step, hd]
    split
    · refine ⟨by simp only [WOut.seen, hv], ?_⟩
      have hr : (w.mats i).rows = (w'.mats i).rows := congrArg CM.rows hv
      simp [MWorld.view, hr]
      rw [show (⟨(w'.mats i).rows, w.sets ((w.mats i).own.getD 0), (w.mats i).dirty⟩ : CM κ) =
        ⟨(w'.mats i).rows, w'.sets ((w'.mats i).own.getD 0), (w'.mats i).dirty⟩ from by
          have := hv; simp only [MWorld.view, hr] at this; exact this]
    · exact ⟨by simp only [WOut.seen, hv], hv⟩

theorem run_length (w : MWorld κ) (ops : List (WOp κ)) : (w.run ops).1.length = ops.length := by
  induction ops generalizing w with
  | nil => rfl
  | cons op ops ih => simp [MWorld.run, ih]

/-- Leaving out everything that is not about `j` does not show at `j`, as long as nobody changes the
set `j` has at that time. -/
theorem run_only {w w' : MWorld κ} (h : w.Wf) (h' : w'.Wf) (j : ℕ) (hv : w.view j = w'.view j)
    (ops : List (WOp κ))
    (hc : ∀ pre a S post, ops = pre ++ .change a S :: post → a ≠ (w.run pre).2.addr j) :
    seenOf j ops (w.run ops).1 = seenOf j (opsOn j ops) (w'.run (opsOn j ops)).1 ∧
      (w.run ops).2.view j = (w'.run (opsOn j ops)).2.view j := by
  induction ops generalizing w w' with
  | nil => exact ⟨rfl, hv⟩
  | cons op ops ih =>
    have hc' : ∀ pre a S post, ops = pre ++ .change a S :: post →
        a ≠ ((w.step op).2.run pre).2.addr j := by
      intro pre a S post e
      exact hc (op :: pre) a S post (by rw [e]; rfl)
    by_cases ho : WOp.on op = some j
    · obtain ⟨s1, s2⟩ := step_same (w := w) (w' := w') ho hv
      obtain ⟨r1, r2⟩ := ih (wf_step h op) (wf_step h' op) s2 hc'
      have e : opsOn j (op :: ops) = op :: opsOn j ops := by simp [opsOn, ho]
      rw [e]
      refine ⟨?_, r2⟩
      simp only [seenOf, MWorld.run, List.zip_cons_cons, List.filter_cons, ho, decide_true, if_true,
        List.map_cons, s1] at r1 ⊢
      rw [r1]
    · have e : opsOn j (op :: ops) = opsOn j ops := by simp [opsOn, ho]
      have s2 : (w.step op).2.view j = w'.view j := by
        rw [view_step_other h ho, hv]
        intro a S e
        exact hc [] a S ops (by rw [e]; rfl)
      obtain ⟨r1, r2⟩ := ih (wf_step h op) h' s2 hc'
      rw [e]
      refine ⟨?_, r2⟩
      simp only [seenOf, MWorld.run, List.zip_cons_cons, List.filter_cons, ho, decide_false] at r1 ⊢
      exact r1

/-- A set once given by another matrix, and not that of the class, is never the set of `j`. -/
def Foreign (w : MWorld κ) (j a : ℕ) : Prop := a < w.next ∧ a ≠ 0 ∧ (w.mats j).own ≠ some a

theorem foreign_step {w : MWorld κ} {j a : ℕ} (h : Foreign w j a) (op : WOp κ) :
    Foreign (w.step op).2 j a := by
  obtain ⟨h1, h2, h3⟩ := h
  cases op with
  | look i p => exact ⟨h1, h2, by simp only [MWorld.step, put_own]; exact h3⟩
  | read i p b => exact ⟨h1, h2, by simp only [MWorld.step, put_own]; exact h3⟩
  | write i p b v => exact ⟨h1, h2, by simp only [MWorld.step, put_own]; exact h3⟩
  | change b S => exact ⟨h1, h2, h3⟩
  | classes i =>
    simp only [MWorld.step]
    split
    · refine ⟨Nat.lt_succ_of_lt h1, h2, ?_⟩
      simp only [Function.update_apply]
      split
      · simpa using h1.ne'
      · exact h3
    · exact ⟨h1, h2, h3⟩

theorem foreign_run {w : MWorld κ} {j a : ℕ} (h : Foreign w j a) (ops : List (WOp κ)) :
    Foreign (w.run ops).2 j a := by
  induction ops generalizing w with
  | nil => exact h
  | cons op ops ih => exact ih (foreign_step h op)

omit [DecidableEq κ] in
theorem foreign_addr {w : MWorld κ} {j a : ℕ} (h : Foreign w j a) : a ≠ w.addr j := by
  intro e
  unfold MWorld.addr at e
  cases ho : (w.mats j).own with
  | none => rw [ho] at e; exact h.2.1 e
  | some b => rw [ho] at e; exact h.2.2 (by rw [ho, e]; rfl)

theorem foreign_classes {w : MWorld κ} (h : w.Wf) {i j a : ℕ} (hij : i ≠ j) (ha : a ≠ 0)
    {S : Finset κ} (hs : (w.step (.classes i)).1 = .set a S) :
    Foreign (w.step (.classes i)).2 j a := by
  simp only [MWorld.step] at hs ⊢
  split at hs
  · simp only [WOut.set.injEq] at hs
    rw [if_pos (by assumption)]
    obtain ⟨rfl, -⟩ := hs
    refine ⟨Nat.lt_succ_self _, ha, ?_⟩
    simp only [Function.update_of_ne (Ne.symm hij)]
    exact fun e => lt_irrefl _ (h.used j _ e).2
  · simp only [WOut.set.injEq] at hs
    rw [if_neg (by assumption)]
    obtain ⟨e, -⟩ := hs
    cases ho : (w.mats i).own with
    | none => rw [ho] at e; exact absurd e.symm ha
    | some b =>
      rw [ho] at e
      obtain rfl : b = a := e
      exact ⟨(h.used i b ho).2, ha, fun e' => hij (h.apart i j b ho e')⟩

/-- A matrix that was written to has a set of its own, or will have one when asked. -/
theorem settled_step {w : MWorld κ} {i : ℕ} (h : (w.mats i).dirty = true ∨ (w.mats i).own ≠ none)
    (op : WOp κ) :
    ((w.step op).2.mats i).dirty = true ∨ ((w.step op).2.mats i).own ≠ none := by
  have hput : ∀ k (m : CM κ), (k = i → m.dirty = true ∨ (w.mats i).own ≠ none) →
      ((w.put k m).mats i).dirty = true ∨ ((w.put k m).mats i).own ≠ none := by
    intro k m hm
    rw [put_own]
    simp only [MWorld.put, Function.update_apply]
    split
    · rename_i e; exact hm e.symm
    · exact h
  have htouch : ∀ p, ((w.view i).touch p).dirty = (w.mats i).dirty := by
    intro p; unfold CM.touch; split <;> rfl
  cases op with
  | look k p => exact hput _ _ (fun e => by subst e; rw [htouch]; exact h)
  | write k p b v => exact hput _ _ (fun e => .inl rfl)
  | read k p b =>
    refine hput _ _ (fun e => ?_)
    subst e
    simp only [CM.read]
    split
    · rw [htouch]; exact h
    · exact .inl rfl
  | change b S => exact h
  | classes k =>
    simp only [MWorld.step]
    split
    · simp only [Function.update_apply]
      split
      · right; simp
      · exact h
    · exact h

theorem settled_run {w : MWorld κ} {i : ℕ} (h : (w.mats i).dirty = true ∨ (w.mats i).own ≠ none)
    (ops : List (WOp κ)) :
    ((w.run ops).2.mats i).dirty = true ∨ ((w.run ops).2.mats i).own ≠ none := by
  induction ops generalizing w with
  | nil => exact h
  | cons op ops ih => exact ih (settled_step h op)

theorem settled_write (w : MWorld κ) (i : ℕ) (p a : κ) (v : PyNum) :
    ((w.step (.write i p a v)).2.mats i).dirty = true := by
  simp [MWorld.step, MWorld.put, CM.write]

theorem touch_cached (m : CM κ) (p : κ) : (m.touch p).cached = m.cached := by
  unfold CM.touch; split <;> rfl

theorem write_cached (m : CM κ) (p a : κ) (v : PyNum) : (m.write p a v).cached = m.cached :=
  touch_cached m p

theorem read_cached (m : CM κ) (p a : κ) : (m.read p a).2.cached = m.cached := by
  simp only [CM.read]
  split
  · exact touch_cached m p
  · rw [write_cached, touch_cached]

/-- A step on a matrix object is the operation on the matrix as a value. -/
theorem view_step (w : MWorld κ) (op : WOp κ) (j : ℕ) (h : WOp.on op = some j) :
    (w.step op).2.view j = WOp.value op (w.view j) := by
  cases op with
  | look i p =>
    obtain rfl : i = j := by simpa [WOp.on] using h
    simp only [MWorld.step, view_put_self, WOp.value]
    rw [← touch_cached (w.view i) p]
  | read i p a =>
    obtain rfl : i = j := by simpa [WOp.on] using h
    simp only [MWorld.step, view_put_self, WOp.value]
    rw [← read_cached (w.view i) p a]
  | write i p a v =>
    obtain rfl : i = j := by simpa [WOp.on] using h
    simp only [MWorld.step, view_put_self, WOp.value]
    rw [← write_cached (w.view i) p a v]
  | change a S => simp [WOp.on] at h
  | classes i =>
    obtain rfl : i = j := by simpa [WOp.on] using h
    simp only [MWorld.step, WOp.value, CM.classes]
    have hd : (w.view i).dirty = (w.mats i).dirty := rfl
    rw [hd]
    split
    · simp [MWorld.view]
    · rfl

theorem view_run_only (w : MWorld κ) (j : ℕ) (ops : List (WOp κ))
    (h : ∀ op ∈ ops, WOp.on op = some j) :
    (w.run ops).2.view j = ops.foldl (fun m op => WOp.value op m) (w.view j) := by
  induction ops generalizing w with
  | nil => rfl
  | cons op ops ih =>
    have := ih (w.step op).2 (fun o ho => h o (List.mem_cons_of_mem _ ho))
    rw [view_step w op j (h op (by simp))] at this
    exact this

/-- Nothing but an operation on `j` changes its rows. -/
theorem rows_step_other (w : MWorld κ) {op : WOp κ} {j : ℕ} (ho : WOp.on op ≠ some j) :
    ((w.step op).2.view j).rows = (w.view j).rows := by
  have hput : ∀ i m, j ≠ i → ((w.put i m).view j).rows = (w.view j).rows :=
    fun i m h => by rw [view_put_other w h]
  cases op with
  | look i p => exact hput _ _ (fun e => ho (by simp [WOp.on, e]))
  | read i p a => exact hput _ _ (fun e => ho (by simp [WOp.on, e]))
  | write i p a v => exact hput _ _ (fun e => ho (by simp [WOp.on, e]))
  | change a S => rfl
  | classes i =>
    have hij : j ≠ i := fun e => ho (by simp [WOp.on, e])
    simp only [MWorld.step]
    split
    · simp only [MWorld.view, Function.update_of_ne hij]
    · rfl

omit [DecidableEq κ] in
theorem hasLabel_of_rows {m m' : CM κ} (h : m.rows = m'.rows) (l : κ) :
    HasLabel m l ↔ HasLabel m' l := by simp only [HasLabel, h]

theorem cell_of_rows {m m' : CM κ} (h : m.rows = m'.rows) (p a : κ) : cell m p a = cell m' p a := by
  simp only [cell_eq, CM.row, h]

theorem label_step (w : MWorld κ) (op : WOp κ) (j : ℕ) (l : κ) :
    HasLabel ((w.step op).2.view j) l ↔
      HasLabel (w.view j) l ∨ (WOp.on op = some j ∧ WOp.names op l) := by
  by_cases ho : WOp.on op = some j
  · rw [view_step w op j ho]
    simp only [ho, true_and]
    cases op with
    | look i p => exact hasLabel_touch _ p l
    | read i p a => exact hasLabel_read _ p a l
    | write i p a v => exact hasLabel_write _ p a v l
    | change a S => simp [WOp.on] at ho
    | classes i =>
      simp only [WOp.value, WOp.names, or_false]
      refine hasLabel_of_rows ?_ l
      unfold CM.classes; split <;> rfl
  · rw [hasLabel_of_rows (rows_step_other w ho) l]
    simp [ho]

theorem label_run (w : MWorld κ) (ops : List (WOp κ)) (j : ℕ) (l : κ) :
    HasLabel ((w.run ops).2.view j) l ↔
      HasLabel (w.view j) l ∨ ∃ op ∈ ops, WOp.on op = some j ∧ WOp.names op l := by
  induction ops generalizing w with
  | nil => simp [MWorld.run]
  | cons op ops ih =>
    rw [MWorld.run, ih, label_step]
    simp only [List.mem_cons, exists_eq_or_imp, or_assoc]

theorem cell_run (w : MWorld κ) (ops : List (WOp κ)) (j : ℕ) (p a : κ) :
    cell ((w.run ops).2.view j) p a = ops.foldl (nextWritten j p a) (cell (w.view j) p a) := by
  induction ops generalizing w with
  | nil => rfl
  | cons op ops ih =>
    rw [MWorld.run, ih, List.foldl_cons]
    congr 1
    by_cases ho : WOp.on op = some j
    · rw [view_step w op j ho]
      cases op with
      | look i q => exact cell_touch _ q p a
      | read i q b => exact cell_read _ q b p a
      | write i q b v =>
        obtain rfl : i = j := by simpa [WOp.on] using ho
        simp only [WOp.value, nextWritten, cell_write, true_and]
        congr 1
        exact propext ⟨fun h => ⟨h.1.symm, h.2.symm⟩, fun h => ⟨h.1.symm, h.2.symm⟩⟩
      | change b S => simp [WOp.on] at ho
      | classes i => exact cell_classes _ p a
    · rw [cell_of_rows (rows_step_other w ho) p a]
      cases op with
      | write i q b v =>
        have : i ≠ j := fun e => ho (by simp [WOp.on, e])
        simp [this, nextWritten]
      | look i q => rfl
      | read i q b => rfl
      | change b S => rfl
      | classes i => rfl

end SegEval
