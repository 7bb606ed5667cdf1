import Verif.Lemmas.RoundedMLError
import Verif.Props.RoundedML
import Verif.Props.ML

/-!
# C112: how far rounding takes precision, recall and F-measure
-/

namespace SegEval.Props

open Spec

/-- C112: on a matrix without negative cells, a query computed with rounded arithmetic raises what
the exact query raises, and otherwise returns a number within `5 n + 12` rounding errors of the exact
one, `n` counting the classes.  Any class, average and beta; any order of the classes. -/
theorem C112_error {κ : Type} [DecidableEq κ] (ρ : Rounding) (eps : ℚ) (he : 0 ≤ eps) (he1 : eps < 1)
    (hd : Accurate ρ.dec eps) (hq : Accurate ρ.sq eps) (o : ClassOrder κ) (site : List ℕ) (m : CM κ)
    (h : Reachable m) (hf : NoFloats m) (hn : NonNeg m) (q : Query κ) (S : Finset κ)
    (hS : ∀ l, HasLabel m l → l ∈ S) (hc : ∀ c, q.about = some c → c ∈ S) :
    (∀ e, q.runR ρ o site m = .error e ↔ q.run o site m = .error e) ∧
    ∀ x y, answer (q.runR ρ o site m) = some x → answer (q.run o site m) = some y →
      (1 - eps) ^ (5 * S.card + 12) * y ≤ x ∧ (1 - eps) ^ (5 * S.card + 12) * x ≤ y ∧
      |x - y| ≤ (5 * S.card + 12) * eps * max x y := by
  have hE : ErrorOf ρ eps := ⟨he, he1, hd, hq⟩
  obtain ⟨h1, h2⟩ := answers_close hE o site q hc
    ⟨matRel_refl hE 0 hf hn, within_sound (reachable_sound h) hS⟩
  refine ⟨h1, fun x y hx hy => ?_⟩
  have h3 := h2 x y hx hy
  rw [show 6 * 0 + 5 * S.card + 12 = 5 * S.card + 12 by omega] at h3
  refine ⟨h3.lower, h3.upper, ?_⟩
  have h4 := near_abs he1 h3
  push_cast at h4
  exact h4

/-- What the default context satisfies. -/
theorem cpython_error : ErrorOf .cpython (1 / 10 ^ 27) :=
  ⟨by norm_num, by norm_num, fun q => (cpython_accurate q).trans
    (mul_le_mul_of_nonneg_right (by norm_num) (abs_nonneg q)), cpython_sq_accurate⟩

/-- C112: with CPython's default context and `n` classes, precision, recall and F-measure are off by
less than `(5 n + 12) * 2 / 10 ^ 27`, and no call raises because of rounding. -/
theorem C112_context {κ : Type} [DecidableEq κ] (o : ClassOrder κ) (site : List ℕ) (m : CM κ)
    (h : Reachable m) (hf : NoFloats m) (hn : NonNeg m) (q : Query κ) (S : Finset κ)
    (hS : ∀ l, HasLabel m l → l ∈ S) (hc : ∀ c, q.about = some c → c ∈ S) (hN : S.card ≤ 10 ^ 25) :
    (∀ e, q.runR .cpython o site m = .error e ↔ q.run o site m = .error e) ∧
    ∀ x y, answer (q.runR .cpython o site m) = some x → answer (q.run o site m) = some y →
      |x - y| ≤ (5 * S.card + 12) * 2 / 10 ^ 27 * y ∧
      |x - y| ≤ (5 * S.card + 12) * 2 / 10 ^ 27 := by
  obtain ⟨h1, h2⟩ := answers_close cpython_error o site q hc
    ⟨matRel_refl cpython_error 0 hf hn, within_sound (reachable_sound h) hS⟩
  refine ⟨h1, fun x y hx hy => ?_⟩
  have h3 := h2 x y hx hy
  have hN' : (S.card : ℚ) ≤ 10 ^ 25 := by exact_mod_cast hN
  have h4 := near_abs_right (by norm_num) (by norm_num) h3 (by push_cast; linarith)
  have h5 : |x - y| ≤ (5 * S.card + 12) * 2 / 10 ^ 27 * y := by
    refine h4.trans (le_of_eq ?_)
    push_cast
    ring
  refine ⟨h5, h5.trans ?_⟩
  have h6 := (C36_range o site m h hf hn q y hy).2
  have h7 : (0 : ℚ) ≤ (5 * S.card + 12) * 2 / 10 ^ 27 := by positivity
  nlinarith

/-- C112: the confusion matrix of two segmentations with the default weights.  Rounding changes
neither which calls raise nor which labels appear; with `N` matches and edits every cell is within
`N + 1` rounding errors, and every precision, recall and F-measure within `6 N + 5 n + 18`. -/
theorem C112_boundaries (ρ : Rounding) (eps : ℚ) (he : 0 ≤ eps) (he1 : eps < 1)
    (hd : Accurate ρ.dec eps) (hq : Accurate ρ.sq eps) (rt : Runtime) (kw : SimKw) (a b : Seg) :
    (∀ e, boundaryConfusionMatrixR ρ rt { kw with weight := .defaultR ρ } a b = .error e ↔
      boundaryConfusionMatrix rt { kw with weight := .default } a b = .error e) ∧
    ∀ m m' st, boundaryConfusionMatrixR ρ rt { kw with weight := .defaultR ρ } a b = .ok m →
      boundaryConfusionMatrix rt { kw with weight := .default } a b = .ok m' →
      boundaryStatistics rt kw.boundaryFormat kw.nT .default a b = .ok st →
      let N := st.matches'.length + editCount st.edits
      (∀ l, HasLabel m l ↔ HasLabel m' l) ∧
      (∀ p c, |entry m p c - entry m' p c| ≤ (N + 1) * eps * max (entry m p c) (entry m' p c)) ∧
      ∀ (o : ClassOrder BLabel) (site : List ℕ) (q : Query BLabel) (S : Finset BLabel),
        (∀ l, HasLabel m' l → l ∈ S) → (∀ c, q.about = some c → c ∈ S) →
        (∀ e, q.runR ρ o site m = .error e ↔ q.run o site m' = .error e) ∧
        ∀ x y, answer (q.runR ρ o site m) = some x → answer (q.run o site m') = some y →
          |x - y| ≤ (6 * N + 5 * S.card + 18) * eps * max x y := by
  have hE : ErrorOf ρ eps := ⟨he, he1, hd, hq⟩
  rcases bcm_lock hE rt kw a b with ⟨e, h1, h2⟩ | ⟨m, m', st, h1, h2, h3, h4⟩
  · rw [h1, h2]
    exact ⟨fun _ => Iff.rfl, fun m m' st hm => by cases hm⟩
  · rw [h1, h2]
    refine ⟨fun e => ⟨fun h => (by cases h), fun h => (by cases h)⟩, ?_⟩
    rintro _ _ st' ⟨⟩ ⟨⟩ hst
    rw [h3] at hst
    cases hst
    intro N
    rw [show 1 + (st.matches'.length + st.edits.transpositions.length +
      st.edits.substitutions.length + st.edits.additions.length) = N + 1 by
        simp only [N, editCount]; omega] at h4
    refine ⟨h4.label, fun p c => ?_, fun o site q S hS hc => ?_⟩
    · have h5 := near_abs he1 (rel_val hE (matRel_cell h4 p c))
      push_cast at h5
      exact h5
    · have hw : Within S m := matRel_within h4
        (within_sound (reachable_sound (bcm_reachable h2)) hS)
      obtain ⟨h5, h6⟩ := answers_close hE o site q hc ⟨h4, hw⟩
      refine ⟨h5, fun x y hx hy => ?_⟩
      have h7 := near_abs he1 (h6 x y hx hy)
      refine h7.trans (le_of_eq ?_)
      push_cast
      ring

/-- The error of a call, if it raises. -/
def raised {α : Type} : Py α → Option PyErr
  | .error e => some e
  | .ok _ => none

/-- A row whose cells cancel. -/
def cancelling : CM ℤ :=
  ((({} : CM ℤ).write 1 1 (.dec 1)).write 1 2 (.dec (10 ^ 28))).write 1 3 (.dec (-10 ^ 28))

/-- C112 refuted with negative cells: the exact precision is 1, with the default context the
denominator is 0 and the call raises. -/
theorem C112_negative_refuted :
    answer (precision ascZ [] (some 1) .micro cancelling) = some 1 ∧
    raised (precisionR .cpython ascZ [] (some 1) .micro cancelling) =
      some .decimalDivisionByZero := by
  decide +kernel

/-- Two classes meeting the hypotheses of `C112_error` and `C112_context`; the F-measure of a class,
rounded and exact, differ. -/
example : Reachable (grid2 7 2 2 0) ∧ NoFloats (grid2 7 2 2 0) ∧ NonNeg (grid2 7 2 2 0) ∧
    (grid2 7 2 2 0).labels = {1, 2} ∧
    ctx (.fmeasure (some 1) 1 .micro) (grid2 7 2 2 0) =
      some (7777777777777777777777777781 / 10 ^ 28) ∧
    answer (fmeasure ascZ [] (some 1) 1 .micro (grid2 7 2 2 0)) = some (7 / 9) := by
  refine ⟨⟨ascZ, 0, [.write 1 1 (.int 7), .write 1 2 (.int 2), .write 2 1 (.int 2),
    .write 2 2 (.int 0)], rfl⟩, ?_, ?_, by decide +kernel, by decide +kernel, by decide +kernel⟩
  · intro p x
    exact grid2_cells PyNum.NoFlt trivial trivial trivial trivial trivial p x
  · intro p x
    exact grid2_cells (fun v => 0 ≤ v.val) (by simp [PyNum.val]) (by simp [PyNum.val])
      (by simp [PyNum.val]) (by simp [PyNum.val]) (by simp [PyNum.val]) p x

/-- Two segmentations for `C112_boundaries`: a near miss earns 1/3, rounded in one matrix. -/
example :
    (boundaryConfusionMatrixR .cpython .ascending ⟨.sets, false, false, 3, .defaultR .cpython⟩
      exNearA exNearB).map (fun m => (entry m (some 1) (some 1), m.labels)) =
      .ok (3333333333333333333333333333 / 10 ^ 28, {some 1, some 2, some 3}) ∧
    (boundaryConfusionMatrix .ascending ⟨.sets, false, false, 3, .default⟩
      exNearA exNearB).map (fun m => (entry m (some 1) (some 1), m.labels)) =
      .ok (1 / 3, {some 1, some 2, some 3}) := by
  decide +kernel

end SegEval.Props
