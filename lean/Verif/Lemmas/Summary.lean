import Verif.Lemmas.Call
import Mathlib.Algebra.Order.BigOperators.Group.List
import Mathlib.Tactic.Ring
import Mathlib.Tactic.FieldSimp

namespace SegEval

open Spec

theorem forLoop_add_dec (l : List PyNum) (t : ℚ) (hl : ∀ x ∈ l, x.NoFlt) :
    forLoop l (.dec t) PyNum.add = .ok (.dec (t + (l.map PyNum.val).sum)) := by
  induction l generalizing t with
  | nil => simp [forLoop]
  | cons x xs ih =>
    have : (PyNum.dec t).add x = .ok (.dec (t + x.val)) := by
      cases x with
      | flt q => exact absurd (hl (.flt q) (by simp)) id
      | int n => rfl
      | dec q => rfl
    rw [forLoop, this]
    simp only
    rw [ih _ (fun x hx => hl x (by simp [hx]))]
    simp [add_assoc]

theorem pyMean_dec (l : List PyNum) (hl : ∀ x ∈ l, x.NoFlt) (hne : l ≠ []) :
    pyMean l = .ok (.dec (meanOf (l.map PyNum.val))) := by
  have hpos : 0 < l.length := List.length_pos_iff.2 hne
  unfold pyMean
  rw [forLoop_add_dec l 0 hl]
  simp only
  rw [if_pos hpos]
  unfold PyNum.truediv
  simp only [PyNum.decDiv]
  rw [if_neg (by exact_mod_cast hpos.ne')]
  simp [meanOf]

theorem forLoop_square (mu : ℚ) (l : List PyNum) (t : ℚ) (hl : ∀ x ∈ l, x.NoFlt) :
    forLoop l (.dec t) (squareStep (.dec mu)) =
      .ok (.dec (t + (l.map (fun x => (x.val - mu) ^ 2)).sum)) := by
  induction l generalizing t with
  | nil => simp [forLoop]
  | cons x xs ih =>
    have : squareStep (.dec mu) (.dec t) x = .ok (.dec (t + (x.val - mu) ^ 2)) := by
      cases x with
      | flt q => exact absurd (hl (.flt q) (by simp)) id
      | int n => simp [squareStep, PyNum.sub, PyNum.mul, PyNum.add, PyNum.val, pow_two]
      | dec q => simp [squareStep, PyNum.sub, PyNum.mul, PyNum.add, PyNum.val, pow_two]
    rw [forLoop, this]
    simp only
    rw [ih _ (fun x hx => hl x (by simp [hx]))]
    simp [add_assoc]

/-- The mean squared deviation. -/
def varOf (l : List ℚ) : ℚ := meanOf (l.map (fun x => (x - meanOf l) ^ 2))

theorem pyVar_dec (l : List PyNum) (hl : ∀ x ∈ l, x.NoFlt) (hne : l ≠ []) :
    pyVar l = .ok (.dec (varOf (l.map PyNum.val))) := by
  have hpos : 0 < l.length := List.length_pos_iff.2 hne
  unfold pyVar
  rw [pyMean_dec l hl hne]
  simp only
  rw [forLoop_square _ l 0 hl]
  simp only
  unfold PyNum.truediv
  simp only [PyNum.decDiv]
  rw [if_neg (by exact_mod_cast hpos.ne')]
  simp [varOf, meanOf, Function.comp_def]

theorem meanOf_bounds (l : List ℚ) (hne : l ≠ []) (a b : ℚ) (ha : ∀ x ∈ l, a ≤ x)
    (hb : ∀ x ∈ l, x ≤ b) : a ≤ meanOf l ∧ meanOf l ≤ b := by
  have hpos : (0 : ℚ) < l.length := by exact_mod_cast List.length_pos_iff.2 hne
  unfold meanOf
  rw [le_div_iff₀ hpos, div_le_iff₀ hpos]
  constructor
  · have := List.card_nsmul_le_sum l a ha
    rw [nsmul_eq_mul] at this; linarith
  · have := List.sum_le_card_nsmul l b hb
    rw [nsmul_eq_mul] at this; linarith

theorem sum_sq_dev (l : List ℚ) (mu : ℚ) :
    (l.map (fun x => (x - mu) ^ 2)).sum =
      (l.map (fun x => x ^ 2)).sum - 2 * mu * l.sum + l.length * mu ^ 2 := by
  induction l with
  | nil => simp
  | cons x xs ih =>
    simp only [List.map_cons, List.sum_cons, List.length_cons, ih]
    push_cast
    ring

theorem varOf_eq (l : List ℚ) (hne : l ≠ []) :
    varOf l = meanOf (l.map (fun x => x ^ 2)) - meanOf l ^ 2 := by
  have hpos : (l.length : ℚ) ≠ 0 := by exact_mod_cast (List.length_pos_iff.2 hne).ne'
  unfold varOf
  simp only [meanOf, List.length_map]
  rw [sum_sq_dev]
  field_simp
  ring

theorem varOf_nonneg (l : List ℚ) : 0 ≤ varOf l := by
  unfold varOf meanOf
  refine div_nonneg (List.sum_nonneg ?_) (by positivity)
  intro x hx
  obtain ⟨y, _, rfl⟩ := List.mem_map.1 hx
  positivity

theorem sum_sq_zero (l : List ℚ) (mu : ℚ) (h : (l.map (fun x => (x - mu) ^ 2)).sum = 0) :
    ∀ x ∈ l, x = mu := by
  induction l with
  | nil => simp
  | cons y ys ih =>
    simp only [List.map_cons, List.sum_cons] at h
    have h1 : 0 ≤ (ys.map (fun x => (x - mu) ^ 2)).sum := by
      refine List.sum_nonneg ?_
      intro x hx
      obtain ⟨y, _, rfl⟩ := List.mem_map.1 hx
      positivity
    have h2 : 0 ≤ (y - mu) ^ 2 := by positivity
    have h3 : (y - mu) ^ 2 = 0 := by linarith
    intro x hx
    rcases List.mem_cons.1 hx with rfl | hx
    · have := pow_eq_zero_iff (two_ne_zero) |>.1 h3; linarith
    · exact ih (by linarith) x hx

theorem varOf_zero_iff (l : List ℚ) (hne : l ≠ []) :
    varOf l = 0 ↔ ∀ x ∈ l, ∀ y ∈ l, x = y := by
  have hpos : (l.length : ℚ) ≠ 0 := by exact_mod_cast (List.length_pos_iff.2 hne).ne'
  constructor
  · intro h x hx y hy
    unfold varOf at h
    rw [meanOf, List.length_map, div_eq_zero_iff] at h
    have := sum_sq_zero l _ (h.resolve_right hpos)
    rw [this x hx, this y hy]
  · intro h
    obtain ⟨z, hz⟩ := List.exists_mem_of_ne_nil l hne
    have hm : meanOf l = z := by
      have := meanOf_bounds l hne z z (fun x hx => (h z hz x hx).le) (fun x hx => (h x hx z hz).le)
      linarith [this.1, this.2]
    unfold varOf
    rw [hm, meanOf]
    have : l.map (fun x => (x - z) ^ 2) = l.map (fun _ => (0 : ℚ)) :=
      List.map_congr_left (fun x hx => by rw [h x hx z hz]; ring)
    rw [this]
    simp

end SegEval
