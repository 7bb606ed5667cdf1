import Verif.Lemmas.WindowCost
import Verif.Spec.Joined

/-!
# The windows of two documents joined
-/

namespace SegEval

open Spec

theorem between_joined_left (p q : List Bool) {i k : ℕ} (h : i + k ≤ p.length) :
    between (joined p q) i k = between p i k := by
  refine between_same fun m _ h2 => ?_
  rw [joined, List.getElem?_append_left (by omega)]

theorem between_joined_right (p q : List Bool) (i k : ℕ) :
    between (joined p q) (p.length + 1 + i) k = between q i k := by
  unfold between joined
  congr 2
  rw [List.drop_append, List.drop_eq_nil_of_le (by omega), List.nil_append,
    show p.length + 1 + i - p.length = i + 1 by omega, List.drop_succ_cons]

theorem between_joined_over (p q : List Bool) {i k : ℕ} (h1 : i ≤ p.length) (h2 : p.length < i + k) :
    between (joined p q) i k ≠ 0 := by
  rw [Ne, between_zero_iff]
  intro h
  refine h p.length h1 h2 ?_
  rw [joined, List.getElem?_append_right (le_refl _), Nat.sub_self]
  rfl

/-- The windows of two joined documents: those of the first, those of the second, and those over the
end of the first. -/
theorem joined_windows {P P₁ P₂ : ℕ → Prop} [DecidablePred P] [DecidablePred P₁] [DecidablePred P₂]
    {n₁ n₂ k : ℕ} (h₁ : ∀ i, i + k < n₁ → (P i ↔ P₁ i)) (h₂ : ∀ i, P (n₁ + i) ↔ P₂ i) :
    ((Finset.range (windows (n₁ + n₂) k)).filter P).card =
      ((Finset.range (windows n₁ k)).filter P₁).card + ((Finset.range (windows n₂ k)).filter P₂).card +
      ((Finset.range (windows (n₁ + n₂) k)).filter (fun i => P i ∧ i < n₁ ∧ n₁ ≤ i + k)).card := by
  rw [← Finset.card_image_of_injective ((Finset.range (windows n₂ k)).filter P₂)
      (f := fun i => n₁ + i) (fun x y h => by simpa using h),
    ← Finset.card_union_of_disjoint, ← Finset.card_union_of_disjoint]
  · congr 1
    ext i
    simp only [Finset.mem_union, Finset.mem_filter, Finset.mem_range, Finset.mem_image, windows]
    constructor
    · rintro ⟨hi, hp⟩
      by_cases hc : i + k < n₁
      · exact .inl (.inl ⟨by omega, (h₁ i hc).1 hp⟩)
      · by_cases hd : i < n₁
        · exact .inr ⟨hi, hp, hd, by omega⟩
        · obtain ⟨j, rfl⟩ := Nat.exists_eq_add_of_le (not_lt.1 hd)
          exact .inl (.inr ⟨j, ⟨by omega, (h₂ j).1 hp⟩, rfl⟩)
    · rintro ((⟨hi, hp⟩ | ⟨j, ⟨hj, hp⟩, rfl⟩) | ⟨hi, hp, -⟩)
      · exact ⟨by omega, (h₁ i (by omega)).2 hp⟩
      · exact ⟨by omega, (h₂ j).2 hp⟩
      · exact ⟨hi, hp⟩
  · rw [Finset.disjoint_left]
    intro i hi hi'
    simp only [Finset.mem_union, Finset.mem_filter, Finset.mem_range, Finset.mem_image, windows] at hi hi'
    rcases hi with ⟨h, -⟩ | ⟨j, -, rfl⟩ <;> omega
  · rw [Finset.disjoint_left]
    intro i hi hi'
    simp only [Finset.mem_filter, Finset.mem_range, Finset.mem_image, windows] at hi hi'
    obtain ⟨j, -, rfl⟩ := hi'
    omega

/-- No probe over the end of the first document is in error. -/
theorem pkErrors_joined {p₁ p₂ r₁ r₂ : List Bool} (hl : p₁.length = r₁.length) (k : ℕ) :
    (pkErrors (joined p₁ p₂) (joined r₁ r₂) k).card =
      (pkErrors p₁ r₁ k).card + (pkErrors p₂ r₂ k).card := by
  have e : (joined r₁ r₂).length + 1 = (r₁.length + 1) + (r₂.length + 1) := by
    simp only [joined, List.length_append, List.length_cons]; omega
  unfold pkErrors
  rw [e, joined_windows (P := PkError (joined p₁ p₂) (joined r₁ r₂) k) (n₁ := r₁.length + 1)
    (n₂ := r₂.length + 1) (P₁ := PkError p₁ r₁ k) (P₂ := PkError p₂ r₂ k) (fun i hi => ?_) (fun i => ?_)]
  · rw [Nat.add_eq_left, Finset.card_eq_zero, Finset.filter_eq_empty_iff]
    rintro i - ⟨hp, h1, h2⟩
    refine hp (iff_of_false (between_joined_over _ _ (by omega) (by omega))
      (between_joined_over _ _ (by omega) (by omega)))
  · unfold PkError
    rw [between_joined_left _ _ (by omega), between_joined_left _ _ (by omega)]
  · unfold PkError
    rw [between_joined_right, ← hl, between_joined_right]

theorem wdErrors_joined {p₁ p₂ r₁ r₂ : List Bool} (hl : p₁.length = r₁.length) (k : ℕ) :
    (wdErrors p₁ r₁ k).card + (wdErrors p₂ r₂ k).card ≤
      (wdErrors (joined p₁ p₂) (joined r₁ r₂) k).card ∧
    (wdErrors (joined p₁ p₂) (joined r₁ r₂) k).card ≤
      (wdErrors p₁ r₁ k).card + (wdErrors p₂ r₂ k).card + k := by
  have e : (joined r₁ r₂).length + 1 = (r₁.length + 1) + (r₂.length + 1) := by
    simp only [joined, List.length_append, List.length_cons]; omega
  unfold wdErrors
  rw [e, joined_windows (P := WdError (joined p₁ p₂) (joined r₁ r₂) k) (n₁ := r₁.length + 1)
    (n₂ := r₂.length + 1) (P₁ := WdError p₁ r₁ k) (P₂ := WdError p₂ r₂ k) (fun i hi => ?_) (fun i => ?_)]
  · refine ⟨Nat.le_add_right _ _, Nat.add_le_add_left ?_ _⟩
    refine (Finset.card_le_card (t := Finset.Ico (r₁.length + 1 - k) (r₁.length + 1)) ?_).trans
      (by rw [Nat.card_Ico]; omega)
    intro i hi
    rw [Finset.mem_filter] at hi
    rw [Finset.mem_Ico]
    omega
  · unfold WdError
    rw [between_joined_left _ _ (by omega), between_joined_left _ _ (by omega)]
  · unfold WdError
    rw [between_joined_right, ← hl, between_joined_right]

theorem massPat_joined (l l' : List ℤ) (h : l ≠ []) (h' : l' ≠ []) :
    massPat (l ++ l') = joined (massPat l) (massPat l') := by
  induction l with
  | nil => exact absurd rfl h
  | cons m l ih =>
    by_cases hl : l = []
    · subst hl
      rw [List.cons_append, List.nil_append, massPat_cons _ _ h']
      rfl
    · rw [List.cons_append, massPat_cons _ _ (by simp [hl]), massPat_cons _ _ hl, ih hl]
      simp [joined]

end SegEval
