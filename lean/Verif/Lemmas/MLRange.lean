import Verif.Lemmas.MLQuery
import Mathlib.Tactic.FieldSimp
import Mathlib.Tactic.Linarith
import Mathlib.Tactic.Positivity
import Mathlib.Tactic.Ring
import Mathlib.Algebra.Order.BigOperators.Group.Finset

namespace SegEval

open Spec

variable {κ : Type _} [DecidableEq κ]

theorem isZeroObj_val {x : PyNum} (h : x.isZeroObj = true) : x.val = 0 := by
  cases x with
  | int n =>
    simp only [PyNum.isZeroObj] at h
    have : n = 0 := by
      unfold isInt at h
      simp at h
      exact h.1
    simp [this, PyNum.val]
  | dec q => cases h
  | flt q => cases h

theorem mem_labels_of_entry {m : CM κ} {p a : κ} (h : entry m p a ≠ 0) :
    p ∈ m.labels ∧ a ∈ m.labels := by
  have := entry_inUse h
  exact ⟨(mem_labels m p).2 (inUse_hasLabel this.1), (mem_labels m a).2 (inUse_hasLabel this.2)⟩

theorem rowTotal_eq (m : CM κ) (c : κ) : rowTotal m c = ∑ a ∈ m.labels, entry m c a :=
  finsum_eq_sum (fun _ h => (mem_labels_of_entry h).2)

theorem colTotal_eq (m : CM κ) (c : κ) : colTotal m c = ∑ p ∈ m.labels, entry m p c :=
  finsum_eq_sum (fun _ h => (mem_labels_of_entry h).1)

theorem split_off (f : κ → ℚ) (S : Finset κ) (hS : ∀ x, f x ≠ 0 → x ∈ S) (c : κ) :
    ∑ᶠ x, f x = f c + ∑ᶠ x, (if x = c then 0 else f x) := by
  rw [finsum_eq_sum (S := insert c S) (fun x h => Finset.mem_insert_of_mem (hS x h)),
    finsum_eq_sum (S := insert c S) (fun x h => Finset.mem_insert_of_mem (hS x (by
      by_cases hx : x = c
      · simp [hx] at h
      · simpa [hx] using h)))]
  have : ∀ x ∈ insert c S, f x = (if x = c then f c else 0) + (if x = c then 0 else f x) := by
    intro x _
    by_cases hx : x = c <;> simp [hx]
  rw [Finset.sum_congr rfl this, Finset.sum_add_distrib, Finset.sum_ite_eq']
  simp

theorem rowTotal_split (m : CM κ) (c : κ) : rowTotal m c = truePos m c + falsePos m c :=
  split_off (fun a => entry m c a) m.labels (fun _ h => (mem_labels_of_entry h).2) c

theorem colTotal_split (m : CM κ) (c : κ) : colTotal m c = truePos m c + falseNeg m c :=
  split_off (fun p => entry m p c) m.labels (fun _ h => (mem_labels_of_entry h).1) c

theorem falsePos_nonneg {m : CM κ} (h : NonNeg m) (c : κ) : 0 ≤ falsePos m c := by
  apply finsum_nonneg
  intro a
  split
  · exact le_refl _
  · exact h c a

theorem falseNeg_nonneg {m : CM κ} (h : NonNeg m) (c : κ) : 0 ≤ falseNeg m c := by
  apply finsum_nonneg
  intro a
  split
  · exact le_refl _
  · exact h a c

theorem sum_row_eq (m : CM κ) : ∑ᶠ c, rowTotal m c = grandTotal m := rfl

theorem grandTotal_eq (m : CM κ) : grandTotal m = ∑ p ∈ m.labels, ∑ a ∈ m.labels, entry m p a := by
  unfold grandTotal
  rw [finsum_eq_sum (S := m.labels)]
  · apply Finset.sum_congr rfl
    intro p _
    exact rowTotal_eq m p
  · intro p h
    by_contra hp
    exact h (rowTotal_off (fun h0 => hp ((mem_labels m p).2 (inUse_hasLabel h0))))

theorem sum_col_eq (m : CM κ) : ∑ᶠ c, colTotal m c = grandTotal m := by
  rw [grandTotal_eq, Finset.sum_comm, finsum_eq_sum (S := m.labels)]
  · apply Finset.sum_congr rfl
    intro p _
    exact colTotal_eq m p
  · intro p h
    by_contra hp
    exact h (colTotal_off (fun h0 => hp ((mem_labels m p).2 (inUse_hasLabel h0))))

theorem diagonal_eq (m : CM κ) : diagonal m = ∑ c ∈ m.labels, entry m c c :=
  finsum_eq_sum (fun _ h => (mem_labels_of_entry h).1)

theorem diagonal_nonneg {m : CM κ} (h : NonNeg m) : 0 ≤ diagonal m := by
  rw [diagonal_eq]; exact Finset.sum_nonneg (fun c _ => h c c)

theorem diagonal_le {m : CM κ} (h : NonNeg m) : diagonal m ≤ grandTotal m := by
  rw [diagonal_eq, grandTotal_eq]
  apply Finset.sum_le_sum
  intro c hc
  exact Finset.single_le_sum (f := fun a => entry m c a) (fun a _ => h c a) hc

theorem micro_ratio {m : CM κ} (h : NonNeg m) (tot : κ → ℚ) (ht : ∑ᶠ c, tot c = grandTotal m) :
    microOf (fun c => some (entry m c c, tot c)) =
      some (if diagonal m = 0 then 0 else diagonal m / grandTotal m) := by
  unfold microOf
  rw [if_neg (by simp)]
  simp only [Option.getD_some]
  rw [ht]
  have hd : ∑ᶠ c, entry m c c = diagonal m := rfl
  rw [hd]
  by_cases h0 : diagonal m = 0
  · rw [if_pos h0, if_pos h0]
  · rw [if_neg h0, if_neg h0, if_neg]
    have h1 := diagonal_nonneg h
    have h2 := diagonal_le h
    have h3 : 0 < diagonal m := lt_of_le_of_ne h1 (Ne.symm h0)
    linarith

/-! ## Ranges -/

theorem ratioOf_range {x : PyNum} {f : ℚ} (hx : 0 ≤ x.val) (hf : 0 ≤ f) {r : ℚ}
    (h : ratioOf x (x.val + f) = some r) : 0 ≤ r ∧ r ≤ 1 := by
  unfold ratioOf at h
  split at h
  · cases h; exact ⟨le_refl _, zero_le_one⟩
  · split at h
    · cases h
    · rename_i h0
      cases h
      have : 0 < x.val + f := lt_of_le_of_ne (by linarith) (Ne.symm h0)
      exact ⟨div_nonneg hx this.le, (div_le_one this).2 (by linarith)⟩

theorem ratioOf_pos {x : PyNum} {f : ℚ} (hx : 0 < x.val) (hf : 0 ≤ f) :
    ratioOf x (x.val + f) = some (x.val / (x.val + f)) := by
  unfold ratioOf
  rw [if_neg, if_neg]
  · linarith
  · intro h
    exact hx.ne' (isZeroObj_val h)

theorem precisionOf_range {m : CM κ} (h : NonNeg m) {c : κ} {r : ℚ}
    (hr : precisionOf m c = some r) : 0 ≤ r ∧ r ≤ 1 := by
  unfold precisionOf at hr
  rw [rowTotal_split] at hr
  exact ratioOf_range (h c c) (falsePos_nonneg h c) hr

theorem recallOf_range {m : CM κ} (h : NonNeg m) {c : κ} {r : ℚ}
    (hr : recallOf m c = some r) : 0 ≤ r ∧ r ≤ 1 := by
  unfold recallOf at hr
  rw [colTotal_split] at hr
  exact ratioOf_range (h c c) (falseNeg_nonneg h c) hr

theorem f_parts_le {beta p r : ℚ} (hp : 0 ≤ p ∧ p ≤ 1) (hr : 0 ≤ r ∧ r ≤ 1) :
    0 ≤ (1 + beta ^ 2) * p * r ∧ (1 + beta ^ 2) * p * r ≤ beta ^ 2 * p + r := by
  have hb : 0 ≤ beta ^ 2 := sq_nonneg beta
  refine ⟨mul_nonneg (mul_nonneg (by linarith) hp.1) hr.1, ?_⟩
  have h1 : beta ^ 2 * p * r ≤ beta ^ 2 * p := by
    have := mul_le_mul_of_nonneg_left hr.2 (mul_nonneg hb hp.1)
    linarith
  have h2 : p * r ≤ r := by
    have := mul_le_mul_of_nonneg_right hp.2 hr.1
    linarith
  linarith

theorem fOfRatios_range {beta p r x : ℚ} (hp : 0 ≤ p ∧ p ≤ 1) (hr : 0 ≤ r ∧ r ≤ 1)
    (h : fOfRatios beta p r = some x) : 0 ≤ x ∧ x ≤ 1 := by
  unfold fOfRatios at h
  split at h
  · cases h; exact ⟨le_refl _, zero_le_one⟩
  · split at h
    · cases h
    · rename_i h0
      cases h
      have := f_parts_le (beta := beta) hp hr
      have hpos : 0 < beta ^ 2 * p + r := lt_of_le_of_ne (this.1.trans this.2) (Ne.symm h0)
      exact ⟨div_nonneg this.1 hpos.le, (div_le_one hpos).2 this.2⟩

theorem fOf_range {beta : ℚ} {m : CM κ} (h : NonNeg m) {c : κ} {x : ℚ}
    (hx : fOf beta m c = some x) : 0 ≤ x ∧ x ≤ 1 := by
  unfold fOf at hx
  cases hp : precisionOf m c with
  | none => rw [hp] at hx; cases hx
  | some p =>
    cases hr : recallOf m c with
    | none => rw [hp, hr] at hx; cases hx
    | some r =>
      rw [hp, hr] at hx
      exact fOfRatios_range (precisionOf_range h hp) (recallOf_range h hr) hx

theorem microOf_range {m : CM κ} {parts : κ → Option (ℚ × ℚ)}
    (hoff : ∀ c, ¬ InUse m c → parts c = some (0, 0))
    (hle : ∀ c n d, parts c = some (n, d) → 0 ≤ n ∧ n ≤ d) {x : ℚ} (h : microOf parts = some x) :
    0 ≤ x ∧ x ≤ 1 := by
  unfold microOf at h
  by_cases hno : ∃ c, parts c = none
  · rw [if_pos hno] at h; cases h
  · rw [if_neg hno] at h
    simp only at h
    have hmem : ∀ c, parts c ≠ some (0, 0) → c ∈ m.labels := by
      intro c hc
      by_contra h0
      exact hc (hoff c (fun h1 => h0 ((mem_labels m c).2 (inUse_hasLabel h1))))
    have hn : ∑ᶠ c, ((parts c).getD (0, 0)).1 = ∑ c ∈ m.labels, ((parts c).getD (0, 0)).1 :=
      finsum_eq_sum (fun c hc => hmem c (fun h0 => hc (by rw [h0]; rfl)))
    have hd : ∑ᶠ c, ((parts c).getD (0, 0)).2 = ∑ c ∈ m.labels, ((parts c).getD (0, 0)).2 :=
      finsum_eq_sum (fun c hc => hmem c (fun h0 => hc (by rw [h0]; rfl)))
    have hc : ∀ c, 0 ≤ ((parts c).getD (0, 0)).1 ∧
        ((parts c).getD (0, 0)).1 ≤ ((parts c).getD (0, 0)).2 := by
      intro c
      cases hp : parts c with
      | none => exact absurd ⟨c, hp⟩ hno
      | some q => exact hle c q.1 q.2 hp
    rw [hn, hd] at h
    have h1 : 0 ≤ ∑ c ∈ m.labels, ((parts c).getD (0, 0)).1 :=
      Finset.sum_nonneg (fun c _ => (hc c).1)
    have h2 : ∑ c ∈ m.labels, ((parts c).getD (0, 0)).1 ≤
        ∑ c ∈ m.labels, ((parts c).getD (0, 0)).2 := Finset.sum_le_sum (fun c _ => (hc c).2)
    split at h
    · cases h; exact ⟨le_refl _, zero_le_one⟩
    · split at h
      · cases h
      · rename_i h0
        cases h
        have hpos := lt_of_le_of_ne (h1.trans h2) (Ne.symm h0)
        exact ⟨div_nonneg h1 hpos.le, (div_le_one hpos).2 h2⟩

omit [DecidableEq κ] in
theorem macroOf_range {S : Finset κ} {val : κ → Option ℚ}
    (hv : ∀ c x, val c = some x → 0 ≤ x ∧ x ≤ 1) {x : ℚ} (h : macroOf S val = some x) :
    0 ≤ x ∧ x ≤ 1 := by
  unfold macroOf at h
  by_cases hno : ∃ c ∈ S, val c = none
  · rw [if_pos hno] at h; cases h
  · rw [if_neg hno] at h
    cases h
    have hc : ∀ c ∈ S, 0 ≤ (val c).getD 0 ∧ (val c).getD 0 ≤ 1 := by
      intro c hc
      cases hp : val c with
      | none => exact absurd ⟨c, hc, hp⟩ hno
      | some q => exact hv c q hp
    have h1 : 0 ≤ ∑ c ∈ S, (val c).getD 0 := Finset.sum_nonneg (fun c h => (hc c h).1)
    have h2 : ∑ c ∈ S, (val c).getD 0 ≤ S.card := by
      have := Finset.sum_le_card_nsmul S (fun c => (val c).getD 0) 1 (fun c h => (hc c h).2)
      simpa using this
    refine ⟨div_nonneg h1 (Nat.cast_nonneg _), ?_⟩
    by_cases h0 : S.card = 0
    · rw [h0]; simp
    · exact (div_le_one (by exact_mod_cast Nat.pos_of_ne_zero h0)).2 h2

theorem fOf_formula {beta : ℚ} {m : CM κ} (h : NonNeg m) {c : κ} (hc : 0 < truePos m c) :
    precisionOf m c = some (truePos m c / (truePos m c + falsePos m c)) ∧
    recallOf m c = some (truePos m c / (truePos m c + falseNeg m c)) ∧
    fOf beta m c = some ((1 + beta ^ 2) * truePos m c /
      ((1 + beta ^ 2) * truePos m c + beta ^ 2 * falseNeg m c + falsePos m c)) := by
  have hfp := falsePos_nonneg h c
  have hfn := falseNeg_nonneg h c
  have h1 : precisionOf m c = some (truePos m c / (truePos m c + falsePos m c)) := by
    unfold precisionOf
    rw [rowTotal_split]
    exact ratioOf_pos hc hfp
  have h2 : recallOf m c = some (truePos m c / (truePos m c + falseNeg m c)) := by
    unfold recallOf
    rw [colTotal_split]
    exact ratioOf_pos hc hfn
  refine ⟨h1, h2, ?_⟩
  unfold fOf
  rw [h1, h2]
  simp only
  have hb : 0 ≤ beta ^ 2 := sq_nonneg beta
  generalize truePos m c = t at *
  generalize falsePos m c = p at *
  generalize falseNeg m c = n at *
  have htp : 0 < t + p := by linarith
  have htn : 0 < t + n := by linarith
  unfold fOfRatios
  have hden : 0 < beta ^ 2 * (t / (t + p)) + t / (t + n) := by positivity
  have hden2 : 0 < (1 + beta ^ 2) * t + beta ^ 2 * n + p := by positivity
  rw [if_neg (by rintro (h | h) <;> exact (div_pos hc (by assumption)).ne' h), if_neg hden.ne']
  congr 1
  rw [div_eq_div_iff hden.ne' hden2.ne']
  field_simp
  ring

theorem f_between {beta p r : ℚ} (hp : 0 < p) (hr : 0 < r) :
    min p r ≤ (1 + beta ^ 2) * p * r / (beta ^ 2 * p + r) ∧
    (1 + beta ^ 2) * p * r / (beta ^ 2 * p + r) ≤ max p r := by
  have hb : 0 ≤ beta ^ 2 := sq_nonneg beta
  have hden : 0 < beta ^ 2 * p + r := by positivity
  rcases le_total p r with h | h
  · rw [min_eq_left h, max_eq_right h, le_div_iff₀ hden, div_le_iff₀ hden]
    have h1 := mul_le_mul_of_nonneg_left h (mul_nonneg hb hp.le)
    have h2 := mul_le_mul_of_nonneg_right h hr.le
    constructor <;> nlinarith
  · rw [min_eq_right h, max_eq_left h, le_div_iff₀ hden, div_le_iff₀ hden]
    have h1 := mul_le_mul_of_nonneg_left h (mul_nonneg hb hp.le)
    have h2 := mul_le_mul_of_nonneg_right h hr.le
    constructor <;> nlinarith

end SegEval
