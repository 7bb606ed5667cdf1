import Verif.Spec.Chance
import Verif.Lemmas.AgreementStep

/-!
# Categories of positions, and the correction for chance
-/

namespace SegEval

open Spec

section
variable {t : ℤ} {a b : BString}

theorem boundaries_image (ha : Only t a) : boundaries a =
    ((Finset.range a.length).filter (fun p => typesAt a p ≠ ∅)).image (fun p => (p, t)) := by
  ext ⟨p, u⟩
  rw [mem_boundaries]
  simp only [Finset.mem_image, Finset.mem_filter, Finset.mem_range, Prod.mk.injEq]
  constructor
  · intro h
    have := Finset.mem_singleton.1 (ha p h)
    exact ⟨p, ⟨typesAt_lt h, Finset.ne_empty_of_mem h⟩, rfl, this.symm⟩
  · rintro ⟨q, ⟨-, h⟩, rfl, rfl⟩
    rcases ha.cases q with h' | h'
    · exact absurd h' h
    · rw [h']; simp

theorem placed_count (ha : Only t a) : placedAt a = boundaryCount a := by
  rw [← boundaries_card, boundaries_image ha, Finset.card_image_of_injective _
    (fun p q h => (Prod.mk.inj h).1)]
  rfl

theorem differing_image (ha : Only t a) (hb : Only t b) (hl : a.length = b.length) :
    symmDiff (boundaries a) (boundaries b) =
    ((Finset.range a.length).filter (fun p => ¬ (typesAt a p = ∅ ↔ typesAt b p = ∅))).image
      (fun p => (p, t)) := by
  ext ⟨p, u⟩
  rw [Finset.mem_symmDiff, mem_boundaries, mem_boundaries]
  simp only [Finset.mem_image, Finset.mem_filter, Finset.mem_range, Prod.mk.injEq]
  constructor
  · intro h
    rcases h with ⟨h, h'⟩ | ⟨h, h'⟩
    · have e := Finset.mem_singleton.1 (ha p h)
      subst e
      refine ⟨p, ⟨typesAt_lt h, ?_⟩, rfl, rfl⟩
      rcases hb.cases p with e | e
      · simp [e, Finset.ne_empty_of_mem h]
      · rw [e] at h'; simp at h'
    · have e := Finset.mem_singleton.1 (hb p h)
      subst e
      refine ⟨p, ⟨hl ▸ typesAt_lt h, ?_⟩, rfl, rfl⟩
      rcases ha.cases p with e | e
      · simp [e, Finset.ne_empty_of_mem h]
      · rw [e] at h'; simp at h'
  · rintro ⟨q, ⟨-, h⟩, rfl, rfl⟩
    rcases ha.cases q with h1 | h1 <;> rcases hb.cases q with h2 | h2 <;> simp_all

/-- Without a window, what segmentation similarity counts are the positions in the same category. -/
theorem same_cost {rt : Runtime} {nT : ℤ} (ha : Only 1 a) (hb : Only 1 b) (hl : a.length = b.length)
    (hn : nT ≤ 1) : (b.length : ℚ) - plainCost rt nT a b = sameAt a b := by
  have he := only_edits (rt := rt) ha hb hl nT
  have h1 := edits_card hl (only_shared ha hb (.inl rfl)) (oneSided_of_oneType ha hb) hn he
  rw [differing_image ha hb hl, Finset.card_image_of_injective _ (fun p q h => (Prod.mk.inj h).1)] at h1
  have h2 := Finset.card_filter_add_card_filter_not (s := Finset.range a.length)
    (fun p => typesAt a p = ∅ ↔ typesAt b p = ∅)
  rw [plainCost, Props.C13_no_window rt a b hl nT hn _ he, h1, ← hl]
  rw [Finset.card_range] at h2
  have h3 : ((sameAt a b : ℕ) : ℚ) +
      (((Finset.range a.length).filter (fun p => ¬ (typesAt a p = ∅ ↔ typesAt b p = ∅))).card : ℚ) =
      a.length := by
    exact_mod_cast h2
  simp only [transpositionCredit, List.map_nil, List.sum_nil, sub_zero]
  linarith

end

/-- A larger expected agreement lowers the coefficient. -/
theorem corrected_mono {a e e' : ℚ} (ha : a ≤ 1) (he : e ≤ e') (h1 : e' < 1) :
    corrected a e' ≤ corrected a e ∧ (corrected a e' = corrected a e ↔ a = 1 ∨ e = e') := by
  have h2 : 0 < 1 - e' := by linarith
  have h3 : 0 < 1 - e := by linarith
  have key : corrected a e - corrected a e' = (1 - a) * (e' - e) / ((1 - e) * (1 - e')) := by
    unfold corrected
    field_simp
    ring
  refine ⟨?_, ?_⟩
  · have : 0 ≤ corrected a e - corrected a e' := by
      rw [key]
      exact div_nonneg (mul_nonneg (by linarith) (by linarith)) (mul_pos h3 h2).le
    linarith
  · rw [eq_comm, ← sub_eq_zero, key, div_eq_zero_iff, mul_eq_zero]
    constructor
    · rintro ((h | h) | h)
      · left; linarith
      · right; linarith
      · exact absurd h (mul_pos h3 h2).ne'
    · rintro (h | h)
      · left; left; linarith
      · left; right; linarith

end SegEval
