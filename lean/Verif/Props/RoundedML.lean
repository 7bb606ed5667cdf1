import Verif.Lemmas.RoundedBed
import Verif.Props.Exchange
import Verif.Props.Rounding

/-!
# C110: rounding of precision, recall and F-measure
-/

namespace SegEval.Props

open Spec

/-- C110: whatever the rounding, precision, recall and F1 of a matrix whose cells are not negative
lie between 0 and 1, per class and averaged. -/
theorem C110_range {κ : Type} [DecidableEq κ] (ρ : Rounding) (limit : ℕ)
    (hr : Faithful ρ.dec limit) (hq : Faithful ρ.sq limit) (h2 : 2 ≤ limit) (o : ClassOrder κ)
    (site : List ℕ) (m : CM κ) (h : Reachable m) (hm : Rounded ρ m) (ht : grandTotal m ≤ limit)
    (hc : m.classes.1.card ≤ limit) (q : Query κ) (hb : q.Balanced) (x : ℚ)
    (hx : answer (q.runR ρ o site m) = some x) : 0 ≤ x ∧ x ≤ 1 := by
  exact rangeR_of_sound hr hq h2 o site (reachable_sound h) hm ht hc q hb hx

/-- C110: for two segmentations, with CPython's default context and the supplied weights, no
precision, recall or F1 of boundaries leaves [0, 1]. -/
theorem C110_boundaries (rt : Runtime) (kw : SimKw) (hw : SuppliedR .cpython kw.weight) (a b : Seg)
    (m : CM BLabel) (h : boundaryConfusionMatrixR .cpython rt kw a b = .ok m)
    (hl : ∀ st, boundaryStatisticsR .cpython rt kw.boundaryFormat kw.nT kw.weight a b = .ok st →
      st.matches'.length + st.edits.transpositions.length + st.edits.substitutions.length +
        st.edits.additions.length ≤ 5 * 10 ^ 27)
    (o : ClassOrder BLabel) (site : List ℕ) (q : Query BLabel) (hb : q.Balanced) (x : ℚ)
    (hx : answer (q.runR .cpython o site m) = some x) : 0 ≤ x ∧ x ≤ 1 := by
  obtain ⟨h1, h2, h3, h4⟩ := bcmR_bounds C68_context.1 (by norm_num) hw h
    (fun st hst => by have := hl st hst; omega)
  exact rangeR_of_sound C68_context.1 cpython_sq_faithful (by norm_num) o site h2 h1 h3 h4 q hb hx

/-- C110: on a matrix of counts, precision and recall of a class and micro averages are the exact
values, rounded once. -/
theorem C110_counts {κ : Type} [DecidableEq κ] (ρ : Rounding) (hr : ρ.dec 0 = 0)
    (o : ClassOrder κ) (site : List ℕ) (m : CM κ) (hm : IntCells m) (c : Option κ) (v : Average)
    (hv : c ≠ none ∨ v ≠ .macro) :
    answer (precisionR ρ o site c v m) = (answer (precision o site c v m)).map ρ.dec ∧
    answer (recallR ρ o site c v m) = (answer (recall o site c v m)).map ρ.dec := by
  have key : ∀ r : MPy κ PyNum, (∀ x m', r = .ok (x, m') → x = .int 0 ∨ ∃ q, x = .dec q) →
      answer (rndAnswer ρ r) = (answer r).map ρ.dec := by
    intro r hq
    cases r with
    | error e => rfl
    | ok p =>
      obtain ⟨x, m'⟩ := p
      rcases hq x m' rfl with rfl | ⟨q, rfl⟩
      · simp [rndAnswer, answer, PyNum.rnd, PyNum.val, hr]
      · rfl
  have hf : ∀ (pre : List ℕ → List ℕ) (f : κ → κ → κ × κ),
      IntFn ρ (fun site m c rp => classRatio o (pre site) (f c) m c rp)
        (fun site m c rp => classRatioR ρ o (pre site) (f c) m c rp) :=
    fun pre f site m c rp hm => classRatioR_int hr o (pre site) (f c) hm c rp
  constructor
  · have e : precisionR ρ o site c v m = rndAnswer ρ (precision o site c v m) :=
      valueR_int o (hf (fun s => 0 :: s) (fun c x => (c, x))) site c v hv hm
    rw [e]
    exact key _ (fun x m' h => ratio_answer o (fun s => 0 :: s) (fun c x => (c, x)) site c v hv hm h)
  · have e : recallR ρ o site c v m = rndAnswer ρ (recall o site c v m) :=
      valueR_int o (hf (fun s => 1 :: s) (fun c x => (x, c))) site c v hv hm
    rw [e]
    exact key _ (fun x m' h => ratio_answer o (fun s => 1 :: s) (fun c x => (x, c)) site c v hv hm h)

/-- C110: on a matrix of counts the micro averages agree to the last digit, in every order of the
classes. -/
theorem C110_counts_micro {κ : Type} [DecidableEq κ] (ρ : Rounding) (hr : ρ.dec 0 = 0)
    (o o' : ClassOrder κ) (site site' : List ℕ) (m : CM κ) (h : Reachable m) (hm : IntCells m)
    (hn : NonNeg m) :
    answer (precisionR ρ o site none .micro m) =
      some (if diagonal m = 0 then 0 else ρ.dec (diagonal m / grandTotal m)) ∧
    answer (recallR ρ o' site' none .micro m) =
      some (if diagonal m = 0 then 0 else ρ.dec (diagonal m / grandTotal m)) := by
  have hf : NoFloats m := fun p a => by obtain ⟨n, hn⟩ := hm p a; rw [hn]; trivial
  obtain ⟨h1, h2⟩ := C35_micro o o' site site' m h hf hn
  rw [(C110_counts ρ hr o site m hm none .micro (.inr (by simp))).1, h1,
    (C110_counts ρ hr o' site' m hm none .micro (.inr (by simp))).2, h2]
  split_ifs <;> simp [hr]

/-- Two segmentations of eleven potential boundaries: two near misses and a substitution. -/
def exNearA : Seg := .sets [{1}, {}, {}, {}, {}, {2}, {}, {}, {}, {}, {1}]
def exNearB : Seg := .sets [{}, {1}, {}, {}, {}, {}, {2}, {}, {}, {}, {3}]

def exNear (ρ : Rounding) : SimKw := ⟨.sets, false, false, 3, .defaultR ρ⟩

/-- The answers to two queries about the boundaries of `exNearA` and `exNearB`. -/
def exNearAnswers (ρ : Rounding) (q q' : Query BLabel) : Option (Option ℚ × Option ℚ) :=
  match boundaryConfusionMatrixR ρ .ascending (exNear ρ) exNearA exNearB with
  | .ok m => some (answer (q.runR ρ ascB [] m), answer (q'.runR ρ ascB [] m))
  | .error _ => none

/-- C110 refuted for near misses: micro-averaged precision and recall of boundaries, equal in exact
arithmetic (C35), differ in the last digits with the default context. -/
theorem C110_micro_refuted :
    exNearAnswers .exact (.precision none .micro) (.recall none .micro) =
      some (some (2 / 5), some (2 / 5)) ∧
    exNearAnswers .cpython (.precision none .micro) (.recall none .micro) =
      some (some (4000000000000000000000000001 / 10 ^ 28),
        some (3999999999999999999999999999 / 10 ^ 28)) :=
  ⟨by decide +kernel, by decide +kernel⟩

/-- A matrix of two classes given row by row. -/
def grid2 (a b c d : ℤ) : CM ℤ :=
  (((({} : CM ℤ).write 1 1 (.int a)).write 1 2 (.int b)).write 2 1 (.int c)).write 2 2 (.int d)

/-- The answer to a query with the default context. -/
def ctx (q : Query ℤ) (m : CM ℤ) : Option ℚ := answer (q.runR .cpython ascZ [] m)

/-- C110 refuted for the mean: F1 of equal precision and recall lies above both, or below both. -/
theorem C110_f1_refuted :
    (ctx (.precision (some 1) .micro) (grid2 7 2 2 0) =
        some (7777777777777777777777777778 / 10 ^ 28) ∧
      ctx (.recall (some 1) .micro) (grid2 7 2 2 0) =
        some (7777777777777777777777777778 / 10 ^ 28) ∧
      ctx (.fmeasure (some 1) 1 .micro) (grid2 7 2 2 0) =
        some (7777777777777777777777777781 / 10 ^ 28)) ∧
    (ctx (.precision (some 1) .micro) (grid2 5 1 1 0) =
        some (8333333333333333333333333333 / 10 ^ 28) ∧
      ctx (.recall (some 1) .micro) (grid2 5 1 1 0) =
        some (8333333333333333333333333333 / 10 ^ 28) ∧
      ctx (.fmeasure (some 1) 1 .micro) (grid2 5 1 1 0) =
        some (8333333333333333333333333332 / 10 ^ 28)) := by
  decide +kernel

/-- C110 refuted for the exchange of hypothesis and reference: F1 of the transposed matrix, equal in
exact arithmetic (C108), differs in the last digit. -/
theorem C110_exchange_refuted :
    ctx (.fmeasure (some 1) 1 .micro) (grid2 1 1 10 0) =
      some (1538461538461538461538461539 / 10 ^ 28) ∧
    ctx (.fmeasure (some 1) 1 .micro) (grid2 1 10 1 0) =
      some (1538461538461538461538461538 / 10 ^ 28) := by
  decide +kernel

/-- C110 refuted for other weights than 1: an F-measure above 1. -/
theorem C110_weight_refuted :
    ctx (.fmeasure (some 1) (22360680 / 10 ^ 21) .micro) (grid2 999 0 1 0) =
      some (1 + 1 / 10 ^ 27) := by
  decide +kernel

/-- The classes in descending order. -/
def descZ : ClassOrder ℤ := ClassOrder.sorted (fun a b : ℤ => b ≤ a)

/-- Three classes. -/
def grid3 : CM ℤ := (((grid2 2 1 1 2).write 3 3 (.int 1)))

/-- C110 refuted for the order of classes: the macro average depends on the order in which the set
of classes is iterated. -/
theorem C110_order_refuted :
    answer (precisionR .cpython ascZ [] none .macro grid3) =
      some (7777777777777777777777777777 / 10 ^ 28) ∧
    answer (precisionR .cpython descZ [] none .macro grid3) =
      some (777777777777777777777777778 / 10 ^ 27) := by
  decide +kernel

theorem grid2_cells (P : PyNum → Prop) (h0 : P (.int 0)) {a b c d : ℤ} (ha : P (.int a))
    (hb : P (.int b)) (hc : P (.int c)) (hd : P (.int d)) (p x : ℤ) : P (cell (grid2 a b c d) p x) := by
  unfold grid2
  simp only [cell_write]
  split_ifs
  · exact hd
  · exact hc
  · exact hb
  · exact ha
  · rw [cell_eq]; simpa [CM.row, dictGet] using h0

/-- A matrix of counts meeting the hypotheses of `C110_range` and `C110_counts_micro`, and its
answers. -/
example : Reachable (grid2 7 2 2 0) ∧ Rounded .cpython (grid2 7 2 2 0) ∧
    IntCells (grid2 7 2 2 0) ∧ NonNeg (grid2 7 2 2 0) ∧ (grid2 7 2 2 0).classes.1.card ≤ 10 ^ 28 ∧
    ctx (.precision none .micro) (grid2 7 2 2 0) = some (6363636363636363636363636364 / 10 ^ 28) ∧
    ctx (.fmeasure none 1 .macro) (grid2 7 2 2 0) = some (388888888888888888888888889 / 10 ^ 27) := by
  refine ⟨⟨ascZ, 0, [.write 1 1 (.int 7), .write 1 2 (.int 2), .write 2 1 (.int 2),
    .write 2 2 (.int 0)], rfl⟩, ⟨?_, ?_, ?_⟩, ?_, ?_, by decide +kernel, by decide +kernel,
    by decide +kernel⟩
  · intro p x
    exact grid2_cells PyNum.NoFlt trivial trivial trivial trivial trivial p x
  · intro p x
    exact grid2_cells (fun v => 0 ≤ v.val) (by simp [PyNum.val]) (by simp [PyNum.val])
      (by simp [PyNum.val]) (by simp [PyNum.val]) (by simp [PyNum.val]) p x
  · intro p x
    exact grid2_cells (fun v => Rounding.cpython.dec v.val = v.val) (by decide +kernel)
      (by decide +kernel) (by decide +kernel) (by decide +kernel) (by decide +kernel) p x
  · intro p x
    exact grid2_cells (fun v => ∃ n : ℤ, v = .int n) ⟨_, rfl⟩ ⟨_, rfl⟩ ⟨_, rfl⟩ ⟨_, rfl⟩ ⟨_, rfl⟩ p x
  · intro p x
    exact grid2_cells (fun v => 0 ≤ v.val) (by simp [PyNum.val]) (by simp [PyNum.val])
      (by simp [PyNum.val]) (by simp [PyNum.val]) (by simp [PyNum.val]) p x

/-- Two segmentations meeting the hypotheses of `C110_boundaries`. -/
example : SuppliedR .cpython (exNear .cpython).weight ∧
    (match boundaryStatisticsR .cpython .ascending .sets 3 (.defaultR .cpython) exNearA exNearB with
      | .ok st => some (st.matches'.length, st.edits.transpositions.length,
          st.edits.substitutions.length, st.edits.additions.length)
      | .error _ => none) = some (0, 2, 1, 0) ∧
    exNearAnswers .cpython (.fmeasure none 1 .macro) (.precision (some (some 2)) .micro) =
      some (some (4666666666666666666666666667 / 10 ^ 28), some 1) :=
  ⟨⟨rfl, .inr rfl, .inr rfl⟩, by decide +kernel, by decide +kernel⟩

end SegEval.Props
