import Verif.Lemmas.Transpose

namespace SegEval

open Spec

variable {κ : Type _} [DecidableEq κ]

theorem incrs_entry {l : List (Incr κ)} {m : CM κ} (h : incrs l {} = .ok m) (p a : κ) :
    entry m p a = (l.map (fun x => if x.p = p ∧ x.a = a then x.v.val else 0)).sum := by
  rw [loop_incr _ Incr.p Incr.a (fun x => x.v.val) (fun m x m' h => ⟨x.v, rfl, h⟩) _ h, entry_empty,
    zero_add]

theorem sum_map_nonneg {α : Type _} (l : List α) (f : α → ℚ) (h : ∀ x ∈ l, 0 ≤ f x) :
    0 ≤ (l.map f).sum := by
  refine List.sum_nonneg (fun y hy => ?_)
  obtain ⟨x, hx, rfl⟩ := List.mem_map.1 hy
  exact h x hx

theorem incrs_nonNeg {l : List (Incr κ)} {m : CM κ} (h : incrs l {} = .ok m)
    (hv : ∀ x ∈ l, 0 ≤ x.v.val) : NonNeg m := by
  intro p a
  have := incrs_entry h p a
  rw [entry] at this
  rw [this]
  refine sum_map_nonneg _ _ (fun x hx => ?_)
  split_ifs
  · exact hv x hx
  · exact le_refl _

theorem ite_and_eq {P Q : Prop} [Decidable P] [Decidable Q] (v : ℚ) :
    (if P ∧ Q then v else 0) = if Q then (if P then v else 0) else 0 := by
  split_ifs <;> tauto

theorem incrs_rowTotal {l : List (Incr κ)} {m : CM κ} (h : incrs l {} = .ok m) (p : κ) :
    rowTotal m p = (l.map (fun x => if x.p = p then x.v.val else 0)).sum := by
  rw [← finsum_keys l Incr.a (fun x => if x.p = p then x.v.val else 0)]
  refine finsum_congr (fun a => ?_)
  rw [incrs_entry h]
  simp only [ite_and_eq]

theorem incrs_colTotal {l : List (Incr κ)} {m : CM κ} (h : incrs l {} = .ok m) (a : κ) :
    colTotal m a = (l.map (fun x => if x.a = a then x.v.val else 0)).sum := by
  rw [← finsum_keys l Incr.p (fun x => if x.a = a then x.v.val else 0)]
  refine finsum_congr (fun p => ?_)
  rw [incrs_entry h]
  simp only [ite_and_eq]
  congr 2
  funext x
  split_ifs <;> rfl

theorem incrs_grandTotal {l : List (Incr κ)} {m : CM κ} (h : incrs l {} = .ok m) :
    grandTotal m = (l.map (fun x => x.v.val)).sum := by
  rw [← finsum_keys l Incr.p]
  exact finsum_congr (fun p => incrs_rowTotal h p)

theorem incrs_diagonal {l : List (Incr κ)} {m : CM κ} (h : incrs l {} = .ok m) :
    diagonal m = (l.map (fun x => if x.p = x.a then x.v.val else 0)).sum := by
  rw [← finsum_keys l Incr.p (fun x => if x.p = x.a then x.v.val else 0)]
  refine finsum_congr (fun p => ?_)
  rw [incrs_entry h]
  congr 2
  funext x
  by_cases h1 : x.p = p
  · simp only [h1, true_and, if_true, eq_comm]
  · simp only [h1, false_and, if_false]

section Bed

theorem creditNum_val (w : Weights) (nT : ℤ) (t : Transposition) :
    (creditNum w nT t).val = credit w nT t := by
  unfold creditNum credit
  cases w.t [t] nT with
  | ok v => rfl
  | error e => simp [PyNum.val]

theorem supplied_credit_nonneg {w : Weights} (hw : Supplied w) {nT : ℤ} (hn : 0 < nT) (t : Transposition) :
    0 ≤ credit w nT t := by
  unfold credit
  rcases hw.2.2 with h | h
  · rw [h]; simp [weightT, PyNum.val]
  · rw [h]
    unfold weightTScale scalePairs PyNum.truediv
    have h0 : (nT : ℚ) ≠ 0 := by exact_mod_cast hn.ne'
    simp only [PyNum.decDiv, h0, if_false, PyNum.val]
    refine div_nonneg ?_ (by exact_mod_cast hn.le)
    simp only [List.map_cons, List.map_nil, spanSum, add_zero]
    exact_mod_cast abs_nonneg _

theorem incrsOf_sum (w : Weights) (nT : ℤ) (st : Statistics) (f : BLabel → BLabel → ℚ → ℚ) :
    ((incrsOf w nT st).map (fun x => f x.p x.a x.v.val)).sum =
      (st.matches'.map (fun t => f (some t) (some t) 1)).sum +
      (st.edits.transpositions.map (fun t => f (some t.type) (some t.type) (credit w nT t))).sum +
      (st.edits.substitutions.map (fun s => f (some s.typeA) (some s.typeB) 1)).sum +
      (st.edits.additions.map (fun d => f (additionCell d).1 (additionCell d).2 1)).sum := by
  have h1 : (PyNum.int 1).val = 1 := by simp [PyNum.val]
  simp only [incrsOf, List.map_append, List.map_map, List.sum_append, Function.comp_def,
    creditNum_val, h1]

end Bed

end SegEval
