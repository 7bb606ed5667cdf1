import Verif.Lemmas.AgreementOrder
import Mathlib.Data.Nat.Choose.Cast
import Mathlib.Tactic.LinearCombination
import Mathlib.Tactic.FieldSimp

namespace SegEval

open Spec

/-! ## A mean of products of pairs is at most the square of the mean -/

theorem two_mul_le (l : List ℚ) (x : ℚ) :
    2 * x * l.sum ≤ l.length * x ^ 2 + (l.map (fun r => r ^ 2)).sum := by
  induction l with
  | nil => simp
  | cons r l ih =>
    simp only [List.sum_cons, List.length_cons, List.map_cons]
    push_cast
    nlinarith [sq_nonneg (x - r)]

theorem sum_sq_le (l : List ℚ) : l.sum ^ 2 ≤ l.length * (l.map (fun r => r ^ 2)).sum := by
  induction l with
  | nil => simp
  | cons r l ih =>
    simp only [List.sum_cons, List.length_cons, List.map_cons]
    push_cast
    have := two_mul_le l r
    nlinarith

theorem pairs_sum (l : List ℚ) :
    2 * ((combinations2 l).map (fun p => p.1 * p.2)).sum + (l.map (fun r => r ^ 2)).sum = l.sum ^ 2 := by
  induction l with
  | nil => simp [combinations2]
  | cons r l ih =>
    simp only [combinations2, List.map_append, List.map_map, List.sum_append, List.sum_cons,
      List.map_cons]
    have : (l.map ((fun p : ℚ × ℚ => p.1 * p.2) ∘ fun y => (r, y))).sum = r * l.sum := by
      have := List.sum_map_mul_left l (fun y => y) r
      simpa [Function.comp_def] using this
    rw [this]
    linear_combination ih

theorem choose_two_cast (n : ℕ) : 2 * ((n.choose 2 : ℕ) : ℚ) = n * (n - 1) := by
  rw [Nat.cast_choose_two]; ring

theorem pair_mean_le (l : List ℚ) (h : 2 ≤ l.length) :
    meanOf ((combinations2 l).map (fun p => p.1 * p.2)) ≤ meanOf l ^ 2 := by
  have h1 := sum_sq_le l
  have h2 := pairs_sum l
  have hk : (2 : ℚ) ≤ l.length := by exact_mod_cast h
  have hc := choose_two_cast l.length
  unfold meanOf
  rw [List.length_map, length_combinations2, div_pow]
  have hcp : (0 : ℚ) < ((l.length.choose 2 : ℕ) : ℚ) := by
    exact_mod_cast Nat.choose_pos h
  rw [div_le_div_iff₀ hcp (by positivity)]
  generalize ((combinations2 l).map (fun p => p.1 * p.2)).sum = e at *
  generalize (l.map (fun r => r ^ 2)).sum = q at *
  generalize ((l.length.choose 2 : ℕ) : ℚ) = c at *
  generalize (l.length : ℚ) = k at *
  generalize l.sum = s at *
  -- 2e = s² - q, s² ≤ kq, 2c = k(k-1):  e k² ≤ s² c
  have e1 : e = (s ^ 2 - q) / 2 := by linarith
  have e2 : c = k * (k - 1) / 2 := by linarith
  rw [e1, e2]
  nlinarith [mul_nonneg (show (0 : ℚ) ≤ k by linarith) (sub_nonneg.2 h1)]

/-! ## How often a coder occurs in the pairs -/

theorem sum_const_map {α : Type _} (l : List α) (q : ℤ) : (l.map (fun _ => q)).sum = l.length * q := by
  induction l with
  | nil => simp
  | cons x xs ih => rw [List.map_cons, List.sum_cons, ih, List.length_cons]; push_cast; ring

theorem occurrences (l : List Name) (hl : l.Nodup) (c : Name) :
    ((combinations2 l).map (fun p => ((if c = p.1 then 1 else 0) + (if c = p.2 then 1 else 0) : ℤ))).sum =
      if c ∈ l then (l.length : ℤ) - 1 else 0 := by
  induction l with
  | nil => simp [combinations2]
  | cons x xs ih =>
    rw [List.nodup_cons] at hl
    simp only [combinations2, List.map_append, List.map_map, List.sum_append, ih hl.2,
      List.length_cons, List.mem_cons]
    have e : (xs.map ((fun p : Name × Name =>
        ((if c = p.1 then 1 else 0) + (if c = p.2 then 1 else 0) : ℤ)) ∘ fun y => (x, y))).sum =
        (if c = x then (xs.length : ℤ) else 0) + if c ∈ xs then 1 else 0 := by
      have h2 := hl.2
      clear ih hl
      induction xs with
      | nil => simp
      | cons y ys ih2 =>
        rw [List.nodup_cons] at h2
        simp only [List.map_cons, List.sum_cons, Function.comp_def, List.length_cons,
          List.mem_cons] at ih2 ⊢
        rw [ih2 h2.2]
        by_cases h3 : c = x
        · by_cases h4 : c = y
          · have : c ∉ ys := by rw [h4]; exact h2.1
            rw [if_pos h3, if_pos h3, if_pos h4, if_neg this, if_pos (Or.inl h4), if_pos h3]
            push_cast; ring
          · rw [if_pos h3, if_pos h3, if_neg h4, if_pos h3]
            simp only [h4, false_or]
            push_cast; ring
        · by_cases h4 : c = y
          · have : c ∉ ys := by rw [h4]; exact h2.1
            rw [if_neg h3, if_neg h3, if_pos h4, if_neg this, if_pos (Or.inl h4), if_neg h3]
            norm_num
          · rw [if_neg h3, if_neg h3, if_neg h4, if_neg h3]
            simp only [h4, false_or]
            ring
    rw [e]
    by_cases h3 : c = x
    · have : c ∉ xs := by rw [h3]; exact hl.1
      rw [if_pos h3, if_neg this, if_neg this, if_pos (Or.inl h3)]
      push_cast; ring
    · rw [if_neg h3]
      simp only [h3, false_or]
      split
      · push_cast; ring
      · ring

section
variable {cmp : Compare} {fmt : BoundaryFormat} {coders : List Name} {items : Items}

theorem tally_pbs_const {P : ℤ} (hnd : coders.Nodup)
    (hP : ∀ j ∈ jobs coders items, (rowD cmp fmt j).pbs = P) {c : Name} (hc : c ∈ coders) :
    (tallyOf cmp fmt (jobs coders items) c).2 = ((coders.length : ℤ) - 1) * items.length * P := by
  rw [tallyOf_eq]
  simp only
  have e1 : (jobs coders items).map (fun j => (if c = j.1.1 then (rowD cmp fmt j).pbs else 0) +
        (if c = j.1.2 then (rowD cmp fmt j).pbs else 0)) =
      (jobs coders items).map (fun j => ((if c = j.1.1 then 1 else 0) +
        (if c = j.1.2 then 1 else 0) : ℤ) * P) := by
    apply List.map_congr_left
    intro j hj
    rw [hP j hj]
    split <;> split <;> ring
  rw [e1]
  have e2 : ∀ L : List (Name × Name), ((L.flatMap (fun p => items.map (fun it => (p, it)))).map
      (fun j : Job => ((if c = j.1.1 then 1 else 0) + (if c = j.1.2 then 1 else 0) : ℤ) * P)).sum =
      (L.map (fun p => ((if c = p.1 then 1 else 0) + (if c = p.2 then 1 else 0) : ℤ))).sum *
        items.length * P := by
    intro L
    induction L with
    | nil => simp
    | cons p ps ih =>
      rw [List.flatMap_cons, List.map_append, List.sum_append, ih, List.map_map, List.map_cons,
        List.sum_cons]
      have : (items.map ((fun j : Job => ((if c = j.1.1 then 1 else 0) +
          (if c = j.1.2 then 1 else 0) : ℤ) * P) ∘ fun it => (p, it))).sum =
          items.length * (((if c = p.1 then 1 else 0) + (if c = p.2 then 1 else 0) : ℤ) * P) := by
        exact sum_const_map items (((if c = p.1 then 1 else 0) + (if c = p.2 then 1 else 0) : ℤ) * P)
      rw [this]
      ring
  unfold jobs
  rw [e2, occurrences coders hnd, if_pos hc]

theorem tally_sum (hjs : jobs coders items ≠ []) (hnd : coders.Nodup) :
    (coders.map (fun c => (tallyOf cmp fmt (jobs coders items) c).1)).sum =
      ((jobs coders items).map (fun j => (rowD cmp fmt j).ba + (rowD cmp fmt j).bb)).sum := by
  have h1 := cb_perm (cmp := cmp) (fmt := fmt) hjs hnd
  have h2 : ((partsOf cmp fmt (jobs coders items)).codersBoundaries.flatMap Prod.snd).Perm
      ((jobs coders items).flatMap (entriesOf cmp fmt)) := by
    have := fold_flat cmp fmt (jobs coders items) {}
    simpa [partsOf] using this
  have h3 := (h1.flatMap_right Prod.snd).symm.trans h2
  have h4 := (h3.map Prod.fst).sum_eq
  have e1 : ∀ cs : List Name, (((cs.map (fun c => (c, (jobs coders items).flatMap (share cmp fmt c)))).flatMap
      Prod.snd).map Prod.fst).sum =
      (cs.map (fun c => (tallyOf cmp fmt (jobs coders items) c).1)).sum := by
    intro cs
    induction cs with
    | nil => rfl
    | cons c cs ih =>
      rw [List.map_cons, List.flatMap_cons, List.map_append, List.sum_append, ih]
      rfl
  have e2 : ∀ js : List Job, ((js.flatMap (entriesOf cmp fmt)).map Prod.fst).sum =
      (js.map (fun j => (rowD cmp fmt j).ba + (rowD cmp fmt j).bb)).sum := by
    intro js
    induction js with
    | nil => rfl
    | cons j js ih =>
      rw [List.flatMap_cons, List.map_append, List.sum_append, ih]
      simp [entriesOf]
  rw [e1, e2] at h4
  exact h4

theorem jobs_length (coders : List Name) (items : Items) :
    (jobs coders items).length = coders.length.choose 2 * items.length := by
  rw [jobs, List.length_flatMap, ← length_combinations2]
  simp

/-- With comparisons of one size, kappa's expected agreement is at most pi's. -/
theorem bias_nonneg {P : ℤ} (hP0 : P ≠ 0) (hjs : jobs coders items ≠ []) (hnd : coders.Nodup)
    (hP : ∀ j ∈ jobs coders items, (rowD cmp fmt j).pbs = P) :
    kappaAe cmp fmt coders (jobs coders items) ≤ piAe cmp fmt (jobs coders items) := by
  have h2 := (jobs_ne_nil.1 hjs).1
  have hi : (items.length : ℚ) ≠ 0 := by
    exact_mod_cast (List.length_pos_iff.2 (jobs_ne_nil.1 hjs).2).ne'
  have hk : (2 : ℚ) ≤ coders.length := by exact_mod_cast h2
  have hPq : (P : ℚ) ≠ 0 := by exact_mod_cast hP0
  have hkap : kappaAe cmp fmt coders (jobs coders items) = meanOf ((combinations2
      (coders.map (fun c => rateOf (tallyOf cmp fmt (jobs coders items) c)))).map
        (fun p => p.1 * p.2)) := by
    rw [kappaAe, pairProducts, combinations2_map, combinations2_map, List.map_map, List.map_map]
    rfl
  have hpi : piAe cmp fmt (jobs coders items) =
      meanOf (coders.map (fun c => rateOf (tallyOf cmp fmt (jobs coders items) c))) ^ 2 := by
    rw [piAe_eq]
    congr 1
    unfold meanOf
    have e1 : ((jobs coders items).map (fun j => ((rowD cmp fmt j).ba + (rowD cmp fmt j).bb : ℤ) /
        ((rowD cmp fmt j).pbs : ℚ))).sum =
        (((jobs coders items).map (fun j => (rowD cmp fmt j).ba + (rowD cmp fmt j).bb)).sum : ℤ) / (P : ℚ) := by
      rw [Int.cast_list_sum, List.map_map, div_eq_mul_inv, ← List.sum_map_mul_right]
      congr 1
      apply List.map_congr_left
      intro j hj
      rw [hP j hj, div_eq_mul_inv]
      rfl
    have e2 : (coders.map (fun c => rateOf (tallyOf cmp fmt (jobs coders items) c))).sum =
        ((coders.map (fun c => (tallyOf cmp fmt (jobs coders items) c).1)).sum : ℤ) /
          (((coders.length : ℚ) - 1) * items.length * P) := by
      rw [Int.cast_list_sum, List.map_map, div_eq_mul_inv, ← List.sum_map_mul_right]
      congr 1
      apply List.map_congr_left
      intro c hc
      rw [rateOf, tally_pbs_const hnd hP hc, div_eq_mul_inv]
      push_cast
      rfl
    rw [e1, e2, tally_sum hjs hnd, List.length_map, jobs_length]
    have hc := choose_two_cast coders.length
    have hk1 : (coders.length : ℚ) - 1 ≠ 0 := by linarith
    have hk0 : (coders.length : ℚ) ≠ 0 := by linarith
    push_cast
    have e3 : (2 : ℚ) * ((coders.length.choose 2 : ℕ) * items.length) =
        coders.length * (coders.length - 1) * items.length := by
      rw [← mul_assoc, hc]
    rw [e3]
    field_simp
  rw [hkap, hpi]
  refine pair_mean_le _ (by rw [List.length_map]; exact h2)

end

end SegEval
