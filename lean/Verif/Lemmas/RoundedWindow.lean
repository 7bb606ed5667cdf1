import Verif.Lemmas.Rounded
import Verif.Lemmas.WindowEval

/-!
# Lemmas about the window metrics with rounded arithmetic
-/

namespace SegEval

open Spec

/-- Pk: the counting does not involve `Decimal`s. -/
theorem pkR_cases (kw : WinKw) (h r : Seg) :
    (∃ e, ∀ ρ om rp, pkR ρ { kw with oneMinus := om, returnParts := rp } h r = .error e) ∨
    ∃ s m : ℤ, 0 ≤ s ∧ s ≤ m ∧ ∀ ρ om rp,
      pkR ρ { kw with oneMinus := om, returnParts := rp } h r =
        if rp then .ok (.parts (.int s) (.int m))
        else if 0 < m then
          .ok (.num (.dec (if om then ρ.dec (1 - ρ.dec ((s : ℚ) / m)) else ρ.dec ((s : ℚ) / m))))
        else .ok (.num (if om then .dec (ρ.dec 1) else .int 0)) := by
  cases h1 : positionsChecked kw.boundaryFormat h r with
  | error e => left; exact ⟨e, fun ρ om rp => by rw [pkR, h1]⟩
  | ok p =>
    obtain ⟨⟨th, lh⟩, ⟨tr, lr⟩⟩ := p
    have hw : ∀ om rp, effectiveWindow { kw with oneMinus := om, returnParts := rp } lr =
      effectiveWindow kw lr := fun _ _ => rfl
    cases h2 : effectiveWindow kw lr with
    | error e => left; exact ⟨e, fun ρ om rp => by rw [pkR, h1]; simp only [hw, h2]⟩
    | ok w =>
      cases h3 : pkDifferences lh lr w with
      | error e => left; exact ⟨e, fun ρ om rp => by rw [pkR, h1]; simp only [hw, h2, h3]⟩
      | ok s =>
        right
        obtain ⟨b1, b2⟩ := pkDifferences_bounds h3
        refine ⟨s, ((lr.length - w).toNat : ℤ), b1, b2, ?_⟩
        intro ρ om rp
        rw [pkR, h1]
        simp only [hw, h2, h3, pyRange, List.length_range]
        by_cases hm : (0 : ℤ) < (((lr.length : ℤ) - w).toNat : ℤ)
        · simp only [if_pos hm, truedivR_dec_int ρ _ hm.ne', applyOneMinusR_dec]
        · simp only [if_neg hm]
          cases om
          · simp [applyOneMinusR]
          · have : PyNum.subR ρ (.dec 1) (.int 0) = .ok (.dec (ρ.dec (1 - ((0 : ℤ) : ℚ)))) := rfl
            simp [applyOneMinusR, this]

/-- WindowDiff: the counting does not involve `Decimal`s. -/
theorem wdR_cases (kw : WinKw) (h r : Seg) :
    (∃ e, ∀ ρ om rp, windowDiffR ρ { kw with oneMinus := om, returnParts := rp } h r = .error e) ∨
    ∃ s d : ℤ, d ≠ 0 ∧ 0 ≤ (s : ℚ) / d ∧ (s : ℚ) / d ≤ 1 ∧ ∀ ρ om rp, ρ.dec ((s : ℚ) / d) ≤ 1 →
      windowDiffR ρ { kw with oneMinus := om, returnParts := rp } h r =
        if om = false then
          if rp then .ok (.parts (.int s) (.int d)) else .ok (.num (.dec (ρ.dec ((s : ℚ) / d))))
        else .ok (.num (.dec (ρ.dec (1 - ρ.dec ((s : ℚ) / d))))) := by
  cases h1 : positionsChecked kw.boundaryFormat h r with
  | error e => left; exact ⟨e, fun ρ om rp => by rw [windowDiffR, h1]⟩
  | ok p =>
    obtain ⟨⟨th, lh⟩, ⟨tr, lr⟩⟩ := p
    have hl := (positionsChecked_length h1).1
    have hw : ∀ om rp, effectiveWindow { kw with oneMinus := om, returnParts := rp } lr =
      effectiveWindow kw lr := fun _ _ => rfl
    cases h2 : effectiveWindow kw lr with
    | error e => left; exact ⟨e, fun ρ om rp => by rw [windowDiffR, h1]; simp only [hw, h2]⟩
    | ok w =>
      cases h3 : createPairedWindow (th, lh) (tr, lr) w kw.lamprierFix with
      | error e => left; exact ⟨e, fun ρ om rp => by rw [windowDiffR, h1]; simp only [hw, h2, h3]⟩
      | ok units =>
        cases h4 : sumDifferences units w with
        | error e =>
          left; exact ⟨e, fun ρ om rp => by rw [windowDiffR, h1]; simp only [hw, h2, h3, h4]⟩
        | ok s =>
          have hb := sumDifferences_bounds h4
          have hlen : (units.length : ℤ) = (unitsOf kw.lamprierFix w lr).length := by
            rw [createPairedWindow_eq] at h3
            split at h3
            · cases h3
            · simp only [Except.ok.injEq] at h3
              rw [← h3, List.length_zip, unitsOf_length _ _ hl, min_self]
          obtain ⟨d, hd⟩ : ∃ d : ℤ, d = if kw.lamprierFix then (units.length : ℤ) - w + 1
            else (convertPositionsToMasses lr).sum - w := ⟨_, rfl⟩
          have hassert : d = (units.length : ℤ) - w ∨ kw.lamprierFix = true := by
            rw [hd]
            cases hk : kw.lamprierFix
            · left
              rw [hlen, masses_sum, hk]
              simp [unitsOf]
            · right; rfl
          have hdge : (units.length : ℤ) - w ≤ d := by
            rcases hassert with h | h
            · exact h.ge
            · rw [hd, if_pos h]; omega
          by_cases hd0 : d = 0
          · left
            refine ⟨if s = 0 then .decimalInvalidOperation else .decimalDivisionByZero, ?_⟩
            intro ρ om rp
            rw [windowDiffR, h1]
            simp only [hw, h2, h3, h4]
            rw [← hd, hd0]
            by_cases hs : s = 0 <;>
              simp [PyNum.truedivR, PyNum.truediv, PyNum.decDiv, hs]
          · right
            have hq : 0 ≤ (s : ℚ) / d ∧ (s : ℚ) / d ≤ 1 := by
              by_cases hpos : (units.length : ℤ) ≤ w
              · have : s = 0 := by omega
                rw [this]; simp
              · have hdp : 0 < d := by omega
                have hdq : (0 : ℚ) < d := by exact_mod_cast hdp
                refine ⟨div_nonneg (by exact_mod_cast hb.1) hdq.le, (div_le_one hdq).2 ?_⟩
                exact_mod_cast (by omega : s ≤ d)
            refine ⟨s, d, hd0, hq.1, hq.2, ?_⟩
            intro ρ om rp hle
            rw [windowDiffR, h1]
            simp only [hw, h2, h3, h4]
            rw [← hd]
            simp only [truedivR_dec_int ρ _ hd0, subR_dec]
            have hle' : (PyNum.dec (ρ.dec ((s : ℚ) / d))).val ≤ 1 := hle
            rw [if_neg (not_not.2 hassert), if_neg (not_not.2 hle')]

end SegEval
