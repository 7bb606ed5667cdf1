import Verif.Lemmas.Formula
import Verif.Lemmas.Rounding
import Verif.Model.Rounded

/-!
# Lemmas about the metrics with rounded arithmetic
-/

namespace SegEval

open Spec Props

/-! ## Without rounding, the base model -/

theorem rnd_exact (x : PyNum) : x.rnd .exact = x := by cases x <;> rfl

theorem addR_exact : PyNum.addR .exact = PyNum.add := by
  funext x y
  unfold PyNum.addR
  cases x.add y with
  | ok z => simp only [rnd_exact]
  | error e => rfl

theorem subR_exact : PyNum.subR .exact = PyNum.sub := by
  funext x y
  unfold PyNum.subR
  cases x.sub y with
  | ok z => simp only [rnd_exact]
  | error e => rfl

theorem mulR_exact : PyNum.mulR .exact = PyNum.mul := by
  funext x y
  unfold PyNum.mulR
  cases x.mul y with
  | ok z => simp only [rnd_exact]
  | error e => rfl

theorem truedivR_exact : PyNum.truedivR .exact = PyNum.truediv := by
  funext x y
  unfold PyNum.truedivR
  cases x.truediv y with
  | ok z => simp only [rnd_exact]
  | error e => rfl

theorem sqR_exact (x : PyNum) : x.mul x = .ok (x.sqR .exact) := by cases x <;> rfl

theorem pySumR_exact : pySumR .exact = pySum := by
  funext l; rw [pySumR, pySum, addR_exact]

theorem weights_exact : Weights.defaultR .exact = .default := by
  unfold Weights.defaultR Weights.default scalePairsR
  simp only [truedivR_exact]
  rfl

theorem countEditsR_exact : countEditsR .exact = countEdits := by
  funext w nT types e
  unfold countEditsR countEdits
  simp only [addR_exact]
  rfl

theorem statisticsOfStringsR_exact : statisticsOfStringsR .exact = statisticsOfStrings := by
  funext rt w nT a b
  unfold statisticsOfStringsR statisticsOfStrings
  simp only [countEditsR_exact]
  rfl

theorem boundaryStatisticsR_exact : boundaryStatisticsR .exact = boundaryStatistics := by
  funext rt fmt nT w a b
  unfold boundaryStatisticsR boundaryStatistics
  simp only [statisticsOfStringsR_exact]
  rfl

theorem applyOneMinusR_exact : applyOneMinusR .exact = applyOneMinus := by
  funext o v
  unfold applyOneMinusR applyOneMinus
  simp only [subR_exact]
  rfl

theorem ratioOrOneR_exact : ratioOrOneR .exact = ratioOrOne := by
  funext n d
  unfold ratioOrOneR ratioOrOne
  simp only [truedivR_exact]

theorem boundarySimilarityR_exact : boundarySimilarityR .exact = boundarySimilarity := by
  funext rt kw a b
  unfold boundarySimilarityR boundarySimilarity
  simp only [boundaryStatisticsR_exact, subR_exact, ratioOrOneR_exact, applyOneMinusR_exact]
  rfl

theorem segmentationSimilarityR_exact :
    segmentationSimilarityR .exact = segmentationSimilarity := by
  funext rt kw a b
  unfold segmentationSimilarityR segmentationSimilarity
  simp only [boundaryStatisticsR_exact, subR_exact, ratioOrOneR_exact, applyOneMinusR_exact]
  rfl

theorem windowDiffR_exact : windowDiffR .exact = windowDiff := by
  funext kw h r
  unfold windowDiffR windowDiff
  simp only [truedivR_exact, subR_exact]
  rfl

theorem pkR_exact : pkR .exact = pk := by
  funext kw h r
  unfold pkR pk
  simp only [truedivR_exact, applyOneMinusR_exact]
  rfl

theorem pyMeanR_exact : pyMeanR .exact = pyMean := by
  funext l
  unfold pyMeanR pyMean
  simp only [truedivR_exact, addR_exact]
  rfl

theorem squareStepR_exact : squareStepR .exact = squareStep := by
  funext mu acc v
  unfold squareStepR squareStep
  simp only [subR_exact, addR_exact, sqR_exact]
  rfl

theorem pyVarR_exact : pyVarR .exact = pyVar := by
  funext l
  unfold pyVarR pyVar
  simp only [pyMeanR_exact, squareStepR_exact, truedivR_exact]
  rfl

theorem compareBR_exact : compareBR .exact = compareB := by
  funext rt nT w fmt a b
  unfold compareBR compareB
  simp only [boundarySimilarityR_exact]
  rfl

theorem actualAgreementR_exact : actualAgreementR .exact = actualAgreement := by
  funext o cmp fmt data
  unfold actualAgreementR actualAgreement actualOfPartsR actualOfParts
  simp only [pySumR_exact, truedivR_exact]
  rfl

theorem decimalActualR_exact : decimalActualR .exact = decimalActual := by
  funext p
  unfold decimalActualR decimalActual
  simp only [pySumR_exact, truedivR_exact]
  rfl

theorem decimalMeanR_exact : decimalMeanR .exact = decimalMean := by
  funext p
  unfold decimalMeanR decimalMean
  simp only [pySumR_exact, truedivR_exact]
  rfl

theorem piExpectedR_exact : piExpectedR .exact = piExpected := by
  funext cb
  unfold piExpectedR piExpected ratiosR ratios ratioStepR
  simp only [decimalMeanR_exact, truedivR_exact, sqR_exact]
  rfl

theorem kappaExpectedR_exact : kappaExpectedR .exact = kappaExpected := by
  funext cb
  unfold kappaExpectedR kappaExpected productStepR rateProductR rateProduct
  simp only [decimalMeanR_exact, truedivR_exact, mulR_exact]
  rfl

theorem finishAgreementR_exact : finishAgreementR .exact = finishAgreement := by
  funext rp aa ae
  unfold finishAgreementR finishAgreement chanceCorrectR chanceCorrect
  simp only [subR_exact, truedivR_exact]
  rfl

theorem fleissPiR_exact : fleissPiR .exact = fleissPi := by
  funext o cmp fmt rp data
  unfold fleissPiR fleissPi
  simp only [decimalActualR_exact, piExpectedR_exact, finishAgreementR_exact]
  rfl

theorem fleissKappaR_exact : fleissKappaR .exact = fleissKappa := by
  funext o cmp fmt rp data
  unfold fleissKappaR fleissKappa
  simp only [decimalActualR_exact, kappaExpectedR_exact, finishAgreementR_exact]
  rfl

theorem artsteinPoesioBiasR_exact : artsteinPoesioBiasR .exact = artsteinPoesioBias := by
  funext o cmp fmt rp data
  unfold artsteinPoesioBiasR artsteinPoesioBias
  simp only [fleissPiR_exact, fleissKappaR_exact, subR_exact]
  rfl

/-! ## Rounded operations -/

theorem addR_dec (ρ : Rounding) (x y : ℚ) :
    PyNum.addR ρ (.dec x) (.dec y) = .ok (.dec (ρ.dec (x + y))) := rfl

theorem addR_int_dec (ρ : Rounding) (n : ℤ) (y : ℚ) :
    PyNum.addR ρ (.int n) (.dec y) = .ok (.dec (ρ.dec (n + y))) := rfl

theorem subR_dec (ρ : Rounding) (x y : ℚ) :
    PyNum.subR ρ (.dec x) (.dec y) = .ok (.dec (ρ.dec (x - y))) := rfl

theorem subR_int_dec (ρ : Rounding) (n : ℤ) (y : ℚ) :
    PyNum.subR ρ (.int n) (.dec y) = .ok (.dec (ρ.dec (n - y))) := rfl

theorem truedivR_dec_int (ρ : Rounding) (x : ℚ) {d : ℤ} (hd : d ≠ 0) :
    PyNum.truedivR ρ (.dec x) (.int d) = .ok (.dec (ρ.dec (x / d))) := by
  have hne : (d : ℚ) ≠ 0 := by exact_mod_cast hd
  simp only [PyNum.truedivR, PyNum.truediv, PyNum.decDiv, if_neg hne, PyNum.rnd]

/-- Rounding never changes whether an operation raises. -/
theorem truedivR_error (ρ : Rounding) (x y : PyNum) (e : PyErr) :
    PyNum.truedivR ρ x y = .error e ↔ PyNum.truediv x y = .error e := by
  unfold PyNum.truedivR
  cases PyNum.truediv x y with
  | ok z => simp
  | error e' => simp

/-! ## The rounded count of edits -/

/-- Sum of the distances of substituted types. -/
def subSum (e : Edits) : ℤ := (e.substitutions.map (fun s => |s.typeA - s.typeB|)).sum

/-- Sum of the spans of transpositions. -/
def transSum (e : Edits) : ℤ :=
  (e.transpositions.map (fun t => |(t.start : ℤ) - (t.stop : ℤ)|)).sum

/-- The weighted count of edits when every operation is rounded by `r`. -/
def roundedCost (r : ℚ → ℚ) (nT R : ℤ) (e : Edits) : ℚ :=
  r (r (e.additions.length + r ((subSum e : ℚ) / R)) + r ((transSum e : ℚ) / nT))

theorem spanSum_subs (e : Edits) :
    spanSum (e.substitutions.map (fun s => (s.typeA, s.typeB))) = subSum e := by
  rw [spanSum_eq, List.map_map, subSum]; rfl

theorem spanSum_trans (e : Edits) :
    spanSum (e.transpositions.map (fun t => ((t.start : ℤ), (t.stop : ℤ)))) = transSum e := by
  rw [spanSum_eq, List.map_map, transSum]; rfl

theorem countEditsR_default (ρ : Rounding) {nT mx mn : ℤ} {types : Finset ℤ} (e : Edits)
    (h1 : pyMax types = .ok mx) (h2 : pyMin types = .ok mn) (hR : mx - mn + 1 ≠ 0) (hn : nT ≠ 0) :
    countEditsR ρ (.defaultR ρ) nT types e =
      .ok (.dec (roundedCost ρ.dec nT (mx - mn + 1) e)) := by
  unfold countEditsR
  simp only [Weights.defaultR, weightA, h1, h2, scalePairsR, truedivR_dec_int ρ _ hR,
    truedivR_dec_int ρ _ hn, addR_int_dec, addR_dec, spanSum_subs, spanSum_trans, roundedCost,
    Int.cast_natCast]

/-- The script with the default weights: how the sums compare to the counts. -/
structure ScriptBounds (nT R : ℤ) (e : Edits) : Prop where
  range_pos : 1 ≤ R
  window_ne : nT ≠ 0
  sub_ge : (e.substitutions.length : ℤ) ≤ subSum e
  sub_le : subSum e + e.substitutions.length ≤ e.substitutions.length * R
  trans_ge : (e.transpositions.length : ℤ) ≤ transSum e
  trans_le : transSum e + e.transpositions.length ≤ e.transpositions.length * nT

theorem statistics_bounds {rt : Runtime} {nT : ℤ} {a b : BString} {st : Statistics}
    (h : statisticsOfStrings rt .default nT a b = .ok st) :
    ∃ mx mn, Extremes a b mx mn ∧ pyMax (identifyTypes a b) = .ok mx ∧
      pyMin (identifyTypes a b) = .ok mn ∧ ScriptBounds nT (mx - mn + 1) st.edits ∧
      st.countEdits = .dec (roundedCost id nT (mx - mn + 1) st.edits) := by
  have hne := statistics_types_ne h
  have hn := statistics_nT_ne h
  obtain ⟨_, _, he, hc, _⟩ := statistics_ok h
  obtain ⟨mx, hmx, hmx1, hmx2⟩ := pyMax_ok hne
  obtain ⟨mn, hmn, hmn1, hmn2⟩ := pyMin_ok hne
  have hle := hmn2 mx hmx1
  refine ⟨mx, mn, ⟨mem_identifyTypes.1 hmx1, mem_identifyTypes.1 hmn1,
    fun t ht => hmx2 t (mem_identifyTypes.2 ht), fun t ht => hmn2 t (mem_identifyTypes.2 ht)⟩,
    hmx, hmn, ?_, ?_⟩
  · have hs := spanSum_bounds (st.edits.substitutions.map (fun s => (s.typeA, s.typeB)))
      (mx - mn + 1) (by
        intro p hp
        rw [List.mem_map] at hp
        obtain ⟨s, hs, rfl⟩ := hp
        rw [he] at hs
        obtain ⟨q, h1, h2⟩ := substitution_mem hs
        have u1 : s.typeA ∈ identifyTypes a b := typesAt_subset_left a b q (mem_onlyIn.1 h1).1
        have u2 : s.typeB ∈ identifyTypes a b := typesAt_subset_right a b q (mem_onlyIn.1 h2).1
        have hneq : s.typeA ≠ s.typeB := by
          intro h; rw [h] at h1; exact (mem_onlyIn.1 h1).2 (mem_onlyIn.1 h2).1
        have v1 := hmx2 _ u1
        have v2 := hmx2 _ u2
        have v3 := hmn2 _ u1
        have v4 := hmn2 _ u2
        simp only
        constructor
        · rcases abs_cases (s.typeA - s.typeB) with h | h <;> omega
        · rcases abs_cases (s.typeA - s.typeB) with h | h <;> omega)
    have ht := spanSum_bounds (st.edits.transpositions.map
      (fun t => ((t.start : ℤ), (t.stop : ℤ)))) nT (by
        intro p hp
        rw [List.mem_map] at hp
        obtain ⟨t, ht, rfl⟩ := hp
        rw [he] at ht
        have hg := allT_genuine rt a b nT t ht
        have g1 := hg.ordered
        have g2 := hg.span
        simp only
        constructor
        · rcases abs_cases ((t.start : ℤ) - (t.stop : ℤ)) with h | h <;> omega
        · rcases abs_cases ((t.start : ℤ) - (t.stop : ℤ)) with h | h <;> omega)
    rw [spanSum_subs, List.length_map] at hs
    rw [spanSum_trans, List.length_map] at ht
    exact ⟨by omega, hn, hs.1, hs.2, ht.1, ht.2⟩
  · rw [← countEditsR_exact, ← weights_exact,
      countEditsR_default _ _ hmx hmn (by omega) hn, Except.ok.injEq, ← he] at hc
    exact hc.symm

/-- Statistics with rounded default weights: the exact ones with another count. -/
theorem statisticsR_ok (ρ : Rounding) {rt : Runtime} {nT : ℤ} {a b : BString} {st : Statistics}
    {mx mn : ℤ} (h : statisticsOfStrings rt .default nT a b = .ok st)
    (h1 : pyMax (identifyTypes a b) = .ok mx) (h2 : pyMin (identifyTypes a b) = .ok mn)
    (hR : mx - mn + 1 ≠ 0) :
    statisticsOfStringsR ρ rt (.defaultR ρ) nT a b =
      .ok { st with countEdits := .dec (roundedCost ρ.dec nT (mx - mn + 1) st.edits) } := by
  have hn := statistics_nT_ne h
  obtain ⟨hl, hb, he, _, hf, hba, hm, hp, hty⟩ := statistics_ok h
  unfold statisticsOfStringsR
  rw [if_neg (by rw [not_not]; exact hl)]
  simp only [hb, countEditsR_default ρ _ h1 h2 hR hn]
  cases st
  simp only at he hf hba hm hp hty
  subst he hf hba hm hp hty
  rfl

/-- Division by the int 0 raises whatever the rounding. -/
theorem scalePairsR_zero (ρ : Rounding) (L : List (ℤ × ℤ)) :
    scalePairsR ρ L 0 = .error (if spanSum L = 0 then .decimalInvalidOperation
      else .decimalDivisionByZero) := by
  simp only [scalePairsR, PyNum.truedivR, PyNum.truediv, PyNum.decDiv, Int.cast_zero, if_true,
    Int.cast_eq_zero]
  by_cases h : spanSum L = 0 <;> simp [h]

theorem scalePairsR_ok (ρ : Rounding) (L : List (ℤ × ℤ)) {m : ℤ} (hm : m ≠ 0) :
    scalePairsR ρ L m = .ok (.dec (ρ.dec ((spanSum L : ℚ) / m))) := truedivR_dec_int ρ _ hm

theorem countEditsR_error (ρ ρ' : Rounding) {nT : ℤ} {types : Finset ℤ} {e : Edits} {er : PyErr}
    (h : countEditsR ρ (.defaultR ρ) nT types e = .error er) :
    countEditsR ρ' (.defaultR ρ') nT types e = .error er := by
  cases h1 : pyMax types with
  | error e1 =>
    simp only [countEditsR, Weights.defaultR, weightA, h1] at h ⊢
    exact h
  | ok mx =>
    cases h2 : pyMin types with
    | error e2 =>
      simp only [countEditsR, Weights.defaultR, weightA, h1, h2] at h ⊢
      exact h
    | ok mn =>
      by_cases hR : mx - mn + 1 = 0
      · simp only [countEditsR, Weights.defaultR, weightA, h1, h2, hR, scalePairsR_zero] at h ⊢
        exact h
      · by_cases hn : nT = 0
        · simp only [countEditsR, Weights.defaultR, weightA, h1, h2, hn, scalePairsR_zero,
            scalePairsR_ok _ _ hR] at h ⊢
          exact h
        · rw [countEditsR_default ρ e h1 h2 hR hn] at h
          cases h

/-- The same errors are raised. -/
theorem statisticsR_error (ρ ρ' : Rounding) {rt : Runtime} {nT : ℤ} {a b : BString} {er : PyErr}
    (h : statisticsOfStringsR ρ rt (.defaultR ρ) nT a b = .error er) :
    statisticsOfStringsR ρ' rt (.defaultR ρ') nT a b = .error er := by
  unfold statisticsOfStringsR at h ⊢
  split at h
  · rename_i hl
    rw [if_pos hl]; exact h
  · rename_i hl
    rw [if_neg hl]
    cases hb : boundaryEditDistance rt a b nT with
    | error e => simp only [hb] at h ⊢; exact h
    | ok e =>
      simp only [hb] at h ⊢
      cases hc : countEditsR ρ (.defaultR ρ) nT (identifyTypes a b) e with
      | error e' =>
        rw [hc] at h
        rw [countEditsR_error ρ ρ' hc]
        exact h
      | ok c => rw [hc] at h; cases h

theorem boundaryStatisticsR_error (ρ ρ' : Rounding) {rt : Runtime} {fmt : BoundaryFormat} {nT : ℤ}
    {a b : Seg} {er : PyErr} (h : boundaryStatisticsR ρ rt fmt nT (.defaultR ρ) a b = .error er) :
    boundaryStatisticsR ρ' rt fmt nT (.defaultR ρ') a b = .error er := by
  unfold boundaryStatisticsR at h ⊢
  cases hs : toBStrings fmt a b with
  | error e => simp only [hs] at h ⊢; exact h
  | ok p => simp only [hs] at h ⊢; exact statisticsR_error ρ ρ' h

/-- Exact default statistics, and the rounded ones beside them. -/
structure Beside (ρ : Rounding) (fmt : BoundaryFormat) (rt : Runtime) (nT R : ℤ) (a b : Seg)
    (sa sb : BString) (st : Statistics) : Prop where
  strings : toBStrings fmt a b = .ok (sa, sb)
  extremes : ∃ mx mn, Extremes sa sb mx mn ∧ R = mx - mn + 1
  exact : boundaryStatistics rt fmt nT .default a b = .ok st
  rounded : boundaryStatisticsR ρ rt fmt nT (.defaultR ρ) a b =
    .ok { st with countEdits := .dec (roundedCost ρ.dec nT R st.edits) }
  count : st.countEdits = .dec (roundedCost id nT R st.edits)
  script : ScriptBounds nT R st.edits
  len : sa.length = sb.length
  edits : boundaryEditDistance rt sa sb nT = .ok st.edits
  matches_ : st.matches'.length = matchCount sa sb

theorem beside_of_exact (ρ : Rounding) {rt : Runtime} {fmt : BoundaryFormat} {nT : ℤ} {a b : Seg}
    {st : Statistics} (h : boundaryStatistics rt fmt nT .default a b = .ok st) :
    ∃ R sa sb, Beside ρ fmt rt nT R a b sa sb st := by
  obtain ⟨sa, sb, h1, h2⟩ := boundaryStatistics_ok h
  obtain ⟨mx, mn, hx, hmx, hmn, hb, hc⟩ := statistics_bounds h2
  have hR : mx - mn + 1 ≠ 0 := by have := hb.range_pos; omega
  obtain ⟨hl, he, hee, _, _, _, hm, _⟩ := statistics_ok h2
  refine ⟨mx - mn + 1, sa, sb, h1, ⟨mx, mn, hx, rfl⟩, h, ?_, hc, hb, hl, ?_, ?_⟩
  · rw [boundaryStatisticsR, h1]
    exact statisticsR_ok ρ h2 hmx hmn hR
  · rw [hee]; exact he
  · rw [hm, matches_length rt hl]

theorem beside_of_rounded (ρ : Rounding) {rt : Runtime} {fmt : BoundaryFormat} {nT : ℤ} {a b : Seg}
    {st' : Statistics} (h : boundaryStatisticsR ρ rt fmt nT (.defaultR ρ) a b = .ok st') :
    ∃ R sa sb st, Beside ρ fmt rt nT R a b sa sb st := by
  cases hx : boundaryStatisticsR .exact rt fmt nT (.defaultR .exact) a b with
  | error e => rw [boundaryStatisticsR_error _ ρ hx] at h; cases h
  | ok st =>
    rw [boundaryStatisticsR_exact, weights_exact] at hx
    obtain ⟨R, sa, sb, hb⟩ := beside_of_exact ρ hx
    exact ⟨R, sa, sb, st, hb⟩

/-! ## Bounds and accuracy of the rounded count -/

section bounds

variable {r : ℚ → ℚ} {limit : ℕ}

theorem Spec.Faithful.zero (hr : Faithful r limit) : r 0 = 0 := by
  have := hr.int 0 (by simp)
  simpa using this

theorem Spec.Faithful.nat (hr : Faithful r limit) {n : ℕ} (h : n ≤ limit) : r n = n := by
  have := hr.int n (by rw [Nat.abs_cast]; exact_mod_cast h)
  simpa using this

theorem Spec.Faithful.one (hr : Faithful r limit) (h : 1 ≤ limit) : r 1 = 1 := by
  have := hr.nat h
  simpa using this

theorem Spec.Faithful.nonneg (hr : Faithful r limit) {q : ℚ} (h : 0 ≤ q) : 0 ≤ r q := by
  rw [← hr.zero]; exact hr.mono h

theorem Spec.Faithful.le_nat (hr : Faithful r limit) {n : ℕ} (hn : n ≤ limit) {q : ℚ} (h : q ≤ n) :
    r q ≤ n := by
  rw [← hr.nat hn]; exact hr.mono h

theorem ScriptBounds.sub_frac {nT R : ℤ} {e : Edits} (h : ScriptBounds nT R e) :
    (e.substitutions.length : ℚ) / R ≤ (subSum e : ℚ) / R ∧
    (subSum e : ℚ) / R ≤ e.substitutions.length - (e.substitutions.length : ℚ) / R := by
  have hR : (0 : ℚ) < R := by exact_mod_cast (by have := h.range_pos; omega : (0 : ℤ) < R)
  have h1 : (e.substitutions.length : ℚ) ≤ subSum e := by exact_mod_cast h.sub_ge
  have h2 : (subSum e : ℚ) + e.substitutions.length ≤ e.substitutions.length * R := by
    exact_mod_cast h.sub_le
  constructor
  · exact (div_le_div_iff_of_pos_right hR).2 h1
  · rw [le_sub_iff_add_le, ← add_div, div_le_iff₀ hR]; exact h2

theorem ScriptBounds.trans_frac {nT R : ℤ} {e : Edits} (h : ScriptBounds nT R e) :
    0 ≤ (e.transpositions.length : ℚ) / nT ∧
    (e.transpositions.length : ℚ) / nT ≤ (transSum e : ℚ) / nT ∧
    (transSum e : ℚ) / nT ≤ e.transpositions.length - (e.transpositions.length : ℚ) / nT := by
  have h1 : (e.transpositions.length : ℚ) ≤ transSum e := by exact_mod_cast h.trans_ge
  have h2 : (transSum e : ℚ) + e.transpositions.length ≤ e.transpositions.length * nT := by
    exact_mod_cast h.trans_le
  by_cases h0 : e.transpositions.length = 0
  · have : transSum e = 0 := by
      rw [transSum, List.length_eq_zero_iff.1 h0]; rfl
    simp [h0, this]
  · have hp : (0 : ℚ) < e.transpositions.length := by
      exact_mod_cast Nat.pos_of_ne_zero h0
    have hn : (0 : ℚ) < nT := by
      by_contra hc
      rw [not_lt] at hc
      nlinarith
    refine ⟨by positivity, (div_le_div_iff_of_pos_right hn).2 h1, ?_⟩
    rw [le_sub_iff_add_le, ← add_div, div_le_iff₀ hn]; exact h2

theorem ScriptBounds.fracs {nT R : ℤ} {e : Edits} (h : ScriptBounds nT R e) :
    0 ≤ (subSum e : ℚ) / R ∧ (subSum e : ℚ) / R ≤ e.substitutions.length ∧
    0 ≤ (transSum e : ℚ) / nT ∧ (transSum e : ℚ) / nT ≤ e.transpositions.length := by
  have hR : (0 : ℚ) < R := by exact_mod_cast (by have := h.range_pos; omega : (0 : ℤ) < R)
  obtain ⟨a1, a2⟩ := h.sub_frac
  obtain ⟨b0, b1, b2⟩ := h.trans_frac
  have : (0 : ℚ) ≤ (e.substitutions.length : ℚ) / R := by positivity
  exact ⟨by linarith, by linarith, by linarith, by linarith⟩

theorem roundedCost_bounds (hr : Faithful r limit) {nT R : ℤ} {e : Edits}
    (h : ScriptBounds nT R e) (hl : editCount e ≤ limit) :
    0 ≤ roundedCost r nT R e ∧ roundedCost r nT R e ≤ editCount e := by
  obtain ⟨a1, a2, b1, b2⟩ := h.fracs
  rw [editCount] at hl
  have s1 := hr.nonneg a1
  have s2 := hr.le_nat (by omega) a2
  have t1 := hr.nonneg b1
  have t2 := hr.le_nat (by omega) b2
  have ha : (0 : ℚ) ≤ e.additions.length := Nat.cast_nonneg _
  have u1 : 0 ≤ r (e.additions.length + r ((subSum e : ℚ) / R)) := hr.nonneg (by linarith)
  have u2 : r (e.additions.length + r ((subSum e : ℚ) / R)) ≤
      ((e.additions.length + e.substitutions.length : ℕ) : ℚ) := by
    apply hr.le_nat (by omega)
    push_cast; linarith
  rw [roundedCost, editCount]
  constructor
  · exact hr.nonneg (by linarith)
  · apply hr.le_nat (by omega)
    push_cast at u2 ⊢; linarith

/-- One more rounding of a value known up to `δ * M`. -/
theorem accurate_step {eps : ℚ} (ha : Accurate r eps) (he : 0 ≤ eps) {x y M δ : ℚ} (hM : |x| ≤ M)
    (h : |y - x| ≤ δ * M) : |r y - x| ≤ ((1 + eps) * (1 + δ) - 1) * M := by
  have h1 := ha y
  have h2 : |y| ≤ M + δ * M := by
    calc |y| = |x + (y - x)| := by ring_nf
      _ ≤ |x| + |y - x| := abs_add_le _ _
      _ ≤ _ := by linarith
  calc |r y - x| = |(r y - y) + (y - x)| := by ring_nf
    _ ≤ |r y - y| + |y - x| := abs_add_le _ _
    _ ≤ eps * |y| + δ * M := by linarith
    _ ≤ eps * (M + δ * M) + δ * M := by nlinarith
    _ = _ := by ring

theorem roundedCost_accurate {eps : ℚ} (ha : Accurate r eps) (he : 0 ≤ eps) {nT R : ℤ} {e : Edits}
    (h : ScriptBounds nT R e) :
    |roundedCost r nT R e - roundedCost id nT R e| ≤
      ((1 + eps) ^ 3 - 1) * roundedCost id nT R e := by
  obtain ⟨a1, a2, b1, b2⟩ := h.fracs
  set s := (subSum e : ℚ) / R with hs
  set t := (transSum e : ℚ) / nT with ht
  set A : ℚ := (e.additions.length : ℚ) with hA
  have hA0 : (0 : ℚ) ≤ A := Nat.cast_nonneg _
  have d1 : |r s - s| ≤ eps * s := by
    have := ha s; rwa [abs_of_nonneg a1] at this
  have d2 : |(A + r s) - (A + s)| ≤ eps * (A + s) := by
    have e1 : (A + r s) - (A + s) = r s - s := by ring
    rw [e1]
    nlinarith
  have d3 := accurate_step ha he (x := A + s) (M := A + s) (by rw [abs_of_nonneg (by linarith)]) d2
  have d4 : |r t - t| ≤ eps * t := by
    have := ha t; rwa [abs_of_nonneg b1] at this
  have d5 : |(r (A + r s) + r t) - (A + s + t)| ≤ ((1 + eps) * (1 + eps) - 1) * (A + s + t) := by
    calc |(r (A + r s) + r t) - (A + s + t)| = |(r (A + r s) - (A + s)) + (r t - t)| := by ring_nf
      _ ≤ |r (A + r s) - (A + s)| + |r t - t| := abs_add_le _ _
      _ ≤ ((1 + eps) * (1 + eps) - 1) * (A + s) + eps * t := by linarith
      _ ≤ _ := by nlinarith [mul_nonneg he b1, mul_nonneg (mul_nonneg he he) b1]
  have d6 := accurate_step ha he (x := A + s + t) (M := A + s + t)
    (by rw [abs_of_nonneg (by linarith)]) d5
  have : roundedCost id nT R e = A + s + t := rfl
  rw [this]
  refine le_trans d6 (le_of_eq ?_)
  ring

end bounds

/-! ## The similarities as rounded formulas -/

/-- `(D - c) / D`, or its complement, with every operation rounded. -/
def roundedRatio (r : ℚ → ℚ) (om : Bool) (D c : ℚ) : ℚ :=
  if om then r (1 - r (r (D - c) / D)) else r (r (D - c) / D)

theorem applyOneMinusR_dec (ρ : Rounding) (om : Bool) (x : ℚ) :
    applyOneMinusR ρ om (.dec x) = .ok (.num (.dec (if om then ρ.dec (1 - x) else x))) := by
  cases om <;> rfl

theorem ratioOrOneR_dec (ρ : Rounding) (x : ℚ) {D : ℤ} (hD : 0 < D) :
    ratioOrOneR ρ (.dec x) D = .ok (.dec (ρ.dec (x / (D : ℚ)))) := by
  rw [ratioOrOneR, if_pos hD, truedivR_dec_int ρ _ hD.ne']

theorem boundarySimR_eq {ρ : Rounding} {rt : Runtime} {kw : SimKw} {a b : Seg} {st : Statistics}
    {c : ℚ} (h : boundaryStatisticsR ρ rt kw.boundaryFormat kw.nT kw.weight a b = .ok st)
    (hc : st.countEdits = .dec c) (hD : 0 < editCount st.edits + st.matches'.length) :
    boundarySimilarityR ρ rt kw a b =
      let D : ℚ := ((editCount st.edits + st.matches'.length : ℕ) : ℚ)
      if kw.returnParts then .ok (.bparts (.dec (ρ.dec (D - c)))
        (.int ((editCount st.edits + st.matches'.length : ℕ) : ℤ)) st.edits)
      else .ok (.num (.dec (roundedRatio ρ.dec kw.oneMinus D c))) := by
  have hcast : (st.edits.additions.length : ℤ) + (st.edits.substitutions.length : ℤ) +
      (st.edits.transpositions.length : ℤ) + (st.matches'.length : ℤ) =
      ((editCount st.edits + st.matches'.length : ℕ) : ℤ) := by
    rw [editCount]; push_cast; rfl
  unfold boundarySimilarityR
  rw [h]
  simp only [hcast, hc, subR_int_dec]
  by_cases hr : kw.returnParts = true
  · simp [hr]
  · have hp : (0 : ℤ) < ((editCount st.edits + st.matches'.length : ℕ) : ℤ) := by exact_mod_cast hD
    simp only [hr, Bool.false_eq_true, if_false, ratioOrOneR_dec ρ _ hp, applyOneMinusR_dec,
      Int.cast_natCast, roundedRatio]

theorem segmentationSimR_eq {ρ : Rounding} {rt : Runtime} {kw : SimKw} {a b : Seg}
    {st : Statistics} {c : ℚ}
    (h : boundaryStatisticsR ρ rt kw.boundaryFormat kw.nT kw.weight a b = .ok st)
    (hc : st.countEdits = .dec c) (hD : 0 < st.pbs * (st.boundaryTypes.card : ℤ)) :
    segmentationSimilarityR ρ rt kw a b =
      let D : ℚ := ((st.pbs * (st.boundaryTypes.card : ℤ) : ℤ) : ℚ)
      if kw.returnParts then .ok (.parts (.dec (ρ.dec (D - c)))
        (.int (st.pbs * (st.boundaryTypes.card : ℤ))))
      else .ok (.num (.dec (roundedRatio ρ.dec kw.oneMinus D c))) := by
  unfold segmentationSimilarityR
  rw [h]
  simp only [hc, subR_int_dec]
  by_cases hr : kw.returnParts = true
  · simp [hr]
  · simp only [hr, Bool.false_eq_true, if_false, ratioOrOneR_dec ρ _ hD, applyOneMinusR_dec,
      roundedRatio]

theorem boundarySimR_stats {ρ : Rounding} {rt : Runtime} {kw : SimKw} {a b : Seg} {v : MetricOut}
    (h : boundarySimilarityR ρ rt kw a b = .ok v) :
    ∃ st, boundaryStatisticsR ρ rt kw.boundaryFormat kw.nT kw.weight a b = .ok st := by
  unfold boundarySimilarityR at h
  cases hs : boundaryStatisticsR ρ rt kw.boundaryFormat kw.nT kw.weight a b with
  | error e => rw [hs] at h; cases h
  | ok st => exact ⟨st, rfl⟩

theorem segmentationSimR_stats {ρ : Rounding} {rt : Runtime} {kw : SimKw} {a b : Seg}
    {v : MetricOut} (h : segmentationSimilarityR ρ rt kw a b = .ok v) :
    ∃ st, boundaryStatisticsR ρ rt kw.boundaryFormat kw.nT kw.weight a b = .ok st := by
  unfold segmentationSimilarityR at h
  cases hs : boundaryStatisticsR ρ rt kw.boundaryFormat kw.nT kw.weight a b with
  | error e => rw [hs] at h; cases h
  | ok st => exact ⟨st, rfl⟩

theorem Beside.den_pos {ρ : Rounding} {fmt : BoundaryFormat} {rt : Runtime} {nT R : ℤ} {a b : Seg}
    {sa sb : BString} {st : Statistics} (h : Beside ρ fmt rt nT R a b sa sb st) :
    0 < editCount st.edits + st.matches'.length := by
  obtain ⟨_, _, _, _, _, _, _, _, _, _, _, _, h1, _⟩ := default_facts h.exact
  exact h1

theorem Beside.pbs_eq {ρ : Rounding} {fmt : BoundaryFormat} {rt : Runtime} {nT R : ℤ} {a b : Seg}
    {sa sb : BString} {st : Statistics} (h : Beside ρ fmt rt nT R a b sa sb st) :
    st.pbs * (st.boundaryTypes.card : ℤ) =
      ((sb.length * (identifyTypes sa sb).card * (identifyTypes sa sb).card : ℕ) : ℤ) ∧
    0 < sb.length * (identifyTypes sa sb).card * (identifyTypes sa sb).card := by
  obtain ⟨sa', sb', _, h0, _, _, _, _, _, _, _, _, _, h1, h2, h3⟩ := default_facts h.exact
  rw [h.strings, Except.ok.injEq, Prod.mk.injEq] at h0
  obtain ⟨rfl, rfl⟩ := h0
  rw [h1, h2] at h3 ⊢
  refine ⟨by push_cast; ring, ?_⟩
  exact_mod_cast h3

/-- Both similarities raise the same errors with and without rounding. -/
theorem boundarySimR_error (ρ ρ' : Rounding) {rt : Runtime} {kw : SimKw} {a b : Seg} {er : PyErr}
    (h : boundarySimilarityR ρ rt { kw with weight := .defaultR ρ } a b = .error er) :
    boundarySimilarityR ρ' rt { kw with weight := .defaultR ρ' } a b = .error er := by
  cases hs : boundaryStatisticsR ρ rt kw.boundaryFormat kw.nT (.defaultR ρ) a b with
  | error e =>
    have hs' := boundaryStatisticsR_error ρ ρ' hs
    unfold boundarySimilarityR at h ⊢
    simp only [hs, hs'] at h ⊢
    exact h
  | ok st =>
    obtain ⟨R, sa, sb, st', hb⟩ := beside_of_rounded ρ hs
    have := boundarySimR_eq (kw := { kw with weight := .defaultR ρ }) hb.rounded rfl hb.den_pos
    rw [this] at h
    simp only at h
    split at h <;> cases h

theorem segmentationSimR_error (ρ ρ' : Rounding) {rt : Runtime} {kw : SimKw} {a b : Seg}
    {er : PyErr} (h : segmentationSimilarityR ρ rt { kw with weight := .defaultR ρ } a b = .error er) :
    segmentationSimilarityR ρ' rt { kw with weight := .defaultR ρ' } a b = .error er := by
  cases hs : boundaryStatisticsR ρ rt kw.boundaryFormat kw.nT (.defaultR ρ) a b with
  | error e =>
    have hs' := boundaryStatisticsR_error ρ ρ' hs
    unfold segmentationSimilarityR at h ⊢
    simp only [hs, hs'] at h ⊢
    exact h
  | ok st =>
    obtain ⟨R, sa, sb, st', hb⟩ := beside_of_rounded ρ hs
    have := segmentationSimR_eq (kw := { kw with weight := .defaultR ρ }) hb.rounded rfl
      (by rw [hb.pbs_eq.1]; exact_mod_cast hb.pbs_eq.2)
    rw [this] at h
    simp only at h
    split at h <;> cases h

theorem roundedRatio_range {r : ℚ → ℚ} {limit : ℕ} (hr : Faithful r limit) (om : Bool) {D : ℕ}
    (hD : 0 < D) (hl : D ≤ limit) {c : ℚ} (h0 : 0 ≤ c) (h1 : c ≤ D) :
    0 ≤ roundedRatio r om D c ∧ roundedRatio r om D c ≤ 1 := by
  have hD' : (0 : ℚ) < D := by exact_mod_cast hD
  have a1 := hr.nonneg (q := (D : ℚ) - c) (by linarith)
  have a2 := hr.le_nat hl (q := (D : ℚ) - c) (by linarith)
  have one := hr.one (by omega)
  have b1 : 0 ≤ r (r ((D : ℚ) - c) / D) := hr.nonneg (by positivity)
  have b2 : r (r ((D : ℚ) - c) / D) ≤ 1 := by
    rw [← one]; exact hr.mono ((div_le_one hD').2 a2)
  unfold roundedRatio
  cases om
  · exact ⟨b1, b2⟩
  · refine ⟨hr.nonneg (by linarith), ?_⟩
    simp only [if_true]
    conv_rhs => rw [← one]
    exact hr.mono (by linarith)

theorem roundedRatio_accurate {r : ℚ → ℚ} {eps : ℚ} (ha : Accurate r eps) (he : 0 ≤ eps)
    (om : Bool) {D c c' : ℚ} (hD : 0 < D) (h0 : 0 ≤ c) (h1 : c ≤ D)
    (hc : |c' - c| ≤ ((1 + eps) ^ 3 - 1) * c) :
    |roundedRatio r om D c' - roundedRatio id om D c| ≤
      (1 + eps) ^ (if om then 6 else 5) - 1 := by
  have hp : (0 : ℚ) ≤ (1 + eps) ^ 3 - 1 := by
    have : (1 : ℚ) ≤ (1 + eps) ^ 3 := one_le_pow₀ (by linarith)
    linarith
  have d1 : |(D - c') - (D - c)| ≤ ((1 + eps) ^ 3 - 1) * D := by
    have : (D - c') - (D - c) = -(c' - c) := by ring
    rw [this, abs_neg]
    exact le_trans hc (mul_le_mul_of_nonneg_left h1 hp)
  have d2 := accurate_step ha he (x := D - c) (M := D)
    (by rw [abs_of_nonneg (by linarith)]; linarith) d1
  have d3 : |r (D - c') / D - (D - c) / D| ≤ ((1 + eps) ^ 4 - 1) * 1 := by
    rw [← sub_div, abs_div, abs_of_pos hD, div_le_iff₀ hD]
    refine le_trans d2 (le_of_eq ?_)
    ring
  have b1 : 0 ≤ (D - c) / D := div_nonneg (by linarith) hD.le
  have b2 : (D - c) / D ≤ 1 := (div_le_one hD).2 (by linarith)
  have d4 := accurate_step ha he (x := (D - c) / D) (M := 1)
    (by rw [abs_of_nonneg b1]; exact b2) d3
  cases om
  · simp only [roundedRatio, id_eq, Bool.false_eq_true, if_false]
    refine le_trans d4 (le_of_eq ?_)
    ring
  · simp only [roundedRatio, id_eq, if_true]
    have d5 : |(1 - r (r (D - c') / D)) - (1 - (D - c) / D)| ≤ ((1 + eps) ^ 5 - 1) * 1 := by
      have : (1 - r (r (D - c') / D)) - (1 - (D - c) / D) =
        -(r (r (D - c') / D) - (D - c) / D) := by ring
      rw [this, abs_neg]
      refine le_trans d4 (le_of_eq ?_)
      ring
    have d6 := accurate_step ha he (x := 1 - (D - c) / D) (M := 1)
      (by rw [abs_of_nonneg (by linarith)]; linarith) d5
    refine le_trans d6 (le_of_eq ?_)
    ring

/-! ## The ends of the scale -/

theorem subSum_nil {e : Edits} (h : e.substitutions.length = 0) : subSum e = 0 := by
  rw [subSum, List.length_eq_zero_iff.1 h]; rfl

theorem transSum_nil {e : Edits} (h : e.transpositions.length = 0) : transSum e = 0 := by
  rw [transSum, List.length_eq_zero_iff.1 h]; rfl

/-- Without substitutions and transpositions nothing is lost. -/
theorem roundedCost_additions {r : ℚ → ℚ} {limit : ℕ} (hr : Faithful r limit) {nT R : ℤ}
    {e : Edits} (hs : e.substitutions.length = 0) (ht : e.transpositions.length = 0)
    (hl : editCount e ≤ limit) : roundedCost r nT R e = editCount e := by
  have h : e.additions.length ≤ limit := by rw [editCount] at hl; omega
  rw [roundedCost, subSum_nil hs, transSum_nil ht, editCount, hs, ht]
  simp only [Int.cast_zero, zero_div, hr.zero, add_zero, hr.nat h]

/-- Neither end of the scale is approached closer than one step of the scaling. -/
theorem ScriptBounds.gap {nT R : ℤ} {e : Edits} (h : ScriptBounds nT R e) {M : ℤ} (h1 : R ≤ M)
    (h2 : nT ≤ M) :
    (editCount e ≠ 0 → 1 / (M : ℚ) ≤ roundedCost id nT R e) ∧
    (e.substitutions.length + e.transpositions.length ≠ 0 →
      1 / (M : ℚ) ≤ editCount e - roundedCost id nT R e) := by
  have hR : (1 : ℚ) ≤ R := by exact_mod_cast h.range_pos
  have hM : (R : ℚ) ≤ M := by exact_mod_cast h1
  have hM2 : (nT : ℚ) ≤ M := by exact_mod_cast h2
  obtain ⟨a1, a2⟩ := h.sub_frac
  obtain ⟨b0, b1, b2⟩ := h.trans_frac
  have hA : (0 : ℚ) ≤ e.additions.length := Nat.cast_nonneg _
  have hS : (0 : ℚ) ≤ (e.substitutions.length : ℚ) / R := by positivity
  have kS : e.substitutions.length ≠ 0 → 1 / (M : ℚ) ≤ (e.substitutions.length : ℚ) / R := by
    intro hk
    have hk' : (1 : ℚ) ≤ e.substitutions.length := by exact_mod_cast Nat.pos_of_ne_zero hk
    exact div_le_div₀ (by linarith) hk' (by linarith) hM
  have kT : e.transpositions.length ≠ 0 → 1 / (M : ℚ) ≤ (e.transpositions.length : ℚ) / nT := by
    intro hk
    have hk' : (1 : ℚ) ≤ e.transpositions.length := by exact_mod_cast Nat.pos_of_ne_zero hk
    have hn : (0 : ℚ) < nT := by
      have h1 : (e.transpositions.length : ℚ) ≤ transSum e := by exact_mod_cast h.trans_ge
      have h2 : (transSum e : ℚ) + e.transpositions.length ≤ e.transpositions.length * nT := by
        exact_mod_cast h.trans_le
      by_contra hc
      rw [not_lt] at hc
      nlinarith
    exact div_le_div₀ (by linarith) hk' hn hM2
  have kA : 1 / (M : ℚ) ≤ 1 := by
    rw [div_le_one (by linarith)]; linarith
  have hc : roundedCost id nT R e = e.additions.length + (subSum e : ℚ) / R +
    (transSum e : ℚ) / nT := rfl
  have hE : (editCount e : ℚ) = e.additions.length + e.substitutions.length +
    e.transpositions.length := by rw [editCount]; push_cast; ring
  constructor
  · intro hk
    rw [editCount] at hk
    rw [hc]
    by_cases q1 : e.substitutions.length = 0
    · by_cases q2 : e.transpositions.length = 0
      · have : (1 : ℚ) ≤ e.additions.length := by
          exact_mod_cast Nat.pos_of_ne_zero (by omega)
        linarith
      · have := kT q2; linarith
    · have := kS q1; linarith
  · intro hk
    rw [hc, hE]
    by_cases q1 : e.substitutions.length = 0
    · have := kT (by omega); linarith
    · have := kS q1; linarith

/-- The rounded similarity is 1 or 0 exactly when the exact one is, if the error is smaller than one
step. -/
theorem roundedRatio_ends {r : ℚ → ℚ} {limit : ℕ} (hr : Faithful r limit) {eps : ℚ}
    (ha : Accurate r eps) (he : 0 ≤ eps) {nT R M : ℤ} {e : Edits} (h : ScriptBounds nT R e)
    (h1 : R ≤ M) (h2 : nT ≤ M) {D : ℕ} (hD : 0 < D) (hl : D ≤ limit) (hE : editCount e ≤ D)
    (hgap : ((1 + eps) ^ 5 - 1) * (D * M) < 1) :
    (roundedRatio r false D (roundedCost r nT R e) = 1 ↔
      roundedRatio id false D (roundedCost id nT R e) = 1) ∧
    (roundedRatio r false D (roundedCost r nT R e) = 0 ↔
      roundedRatio id false D (roundedCost id nT R e) = 0) := by
  have hD' : (0 : ℚ) < D := by exact_mod_cast hD
  have hM : (0 : ℚ) < M := by
    exact_mod_cast (by have := h.range_pos; omega : (0 : ℤ) < M)
  have hEq : (editCount e : ℚ) ≤ D := by exact_mod_cast hE
  obtain ⟨a1, a2, b1, b2⟩ := h.fracs
  have hA : (0 : ℚ) ≤ e.additions.length := Nat.cast_nonneg _
  have hc : roundedCost id nT R e = e.additions.length + (subSum e : ℚ) / R +
    (transSum e : ℚ) / nT := rfl
  have hEc : (editCount e : ℚ) = e.additions.length + e.substitutions.length +
    e.transpositions.length := by rw [editCount]; push_cast; ring
  have c0 : 0 ≤ roundedCost id nT R e := by rw [hc]; linarith
  have c1 : roundedCost id nT R e ≤ editCount e := by rw [hc, hEc]; linarith
  have acc := roundedRatio_accurate ha he false hD' c0 (by linarith)
    (roundedCost_accurate ha he h)
  simp only [Bool.false_eq_true, if_false] at acc
  obtain ⟨g1, g2⟩ := h.gap h1 h2
  have hx : roundedRatio id false D (roundedCost id nT R e) =
    1 - roundedCost id nT R e / D := by
    simp only [roundedRatio, Bool.false_eq_true, if_false, id_eq]
    rw [sub_div, div_self hD'.ne']
  have hlt : (1 + eps) ^ 5 - 1 < 1 / M / D := by
    rw [div_div, lt_div_iff₀ (by positivity), mul_comm (M : ℚ)]; exact hgap
  have one := hr.one (by omega)
  constructor
  · constructor
    · intro hr1
      rw [hr1, hx] at acc
      by_contra hne
      rw [hx] at hne
      have hk : editCount e ≠ 0 := by
        intro h0
        apply hne
        have : roundedCost id nT R e = 0 := le_antisymm (by rw [h0] at c1; simpa using c1) c0
        rw [this]; simp
      have h3 := (div_le_div_iff_of_pos_right hD').2 (g1 hk)
      have h4 := le_abs_self (1 - (1 - roundedCost id nT R e / D))
      linarith
    · intro hx1
      rw [hx] at hx1
      have hz : roundedCost id nT R e = 0 := by
        have : roundedCost id nT R e / D = 0 := by linarith
        rcases div_eq_zero_iff.1 this with h | h
        · exact h
        · exact absurd h hD'.ne'
      have hk : editCount e = 0 := by
        by_contra hk
        have := g1 hk
        have h5 : (0 : ℚ) < 1 / M := by positivity
        linarith
      have : roundedCost r nT R e = 0 := by
        rw [roundedCost_additions hr (by rw [editCount] at hk; omega)
          (by rw [editCount] at hk; omega) (by omega), hk]; simp
      rw [this]
      simp only [roundedRatio, Bool.false_eq_true, if_false, sub_zero, hr.nat hl,
        div_self hD'.ne', one]
  · constructor
    · intro hr0
      rw [hr0, hx] at acc
      by_contra hne
      rw [hx] at hne
      have key : 1 / (M : ℚ) ≤ D - roundedCost id nT R e := by
        by_cases hk : e.substitutions.length + e.transpositions.length = 0
        · have hs0 : roundedCost id nT R e = editCount e := by
            rw [hc, subSum_nil (by omega), transSum_nil (by omega), hEc]
            have q1 : e.substitutions.length = 0 := by omega
            have q2 : e.transpositions.length = 0 := by omega
            rw [q1, q2]; simp
          have hne' : editCount e ≠ D := by
            intro h0
            apply hne
            rw [hs0, h0, div_self hD'.ne', sub_self]
          have : (editCount e : ℚ) + 1 ≤ D := by exact_mod_cast (by omega : editCount e + 1 ≤ D)
          have kA : 1 / (M : ℚ) ≤ 1 := by
            rw [div_le_one hM]
            exact_mod_cast (by have := h.range_pos; omega : (1 : ℤ) ≤ M)
          rw [hs0]; linarith
        · have := g2 hk; linarith
      have h3 := (div_le_div_iff_of_pos_right hD').2 key
      rw [sub_div, div_self hD'.ne'] at h3
      have h4 := neg_le_abs (0 - (1 - roundedCost id nT R e / D))
      linarith
    · intro hx0
      rw [hx] at hx0
      have hz : roundedCost id nT R e = D := by
        have : roundedCost id nT R e / D = 1 := by linarith
        rwa [div_eq_one_iff_eq hD'.ne'] at this
      have hk : e.substitutions.length + e.transpositions.length = 0 := by
        by_contra hk
        have := g2 hk
        have h5 : (0 : ℚ) < 1 / M := by positivity
        linarith
      have hED : editCount e = D := by
        have : (editCount e : ℚ) = D := by linarith
        exact_mod_cast this
      have : roundedCost r nT R e = D := by
        rw [roundedCost_additions hr (by omega) (by omega) (by omega), hED]
      rw [this]
      simp only [roundedRatio, Bool.false_eq_true, if_false, sub_self, hr.zero, zero_div]

/-! ## The default decimal context -/

theorem cpython_faithful : Faithful Rounding.cpython.dec (10 ^ 28) :=
  roundSig_faithful (by norm_num) (by norm_num)

theorem cpython_accurate : Accurate Rounding.cpython.dec (1 / (2 * 10 ^ 27)) := by
  have := roundSig_accurate (b := 10) (p := 28) (by norm_num)
  intro q
  refine le_trans (this q) (le_of_eq ?_)
  norm_num

theorem cpython_flt_accurate : Accurate Rounding.cpython.flt (1 / 2 ^ 53) := by
  have := roundSig_accurate (b := 2) (p := 53) (by norm_num)
  intro q
  refine le_trans (this q) (le_of_eq ?_)
  norm_num

/-! ## Symmetry -/

/-- The weight functions of weight.py, with rounded division. -/
def SuppliedR (ρ : Rounding) (w : Weights) : Prop :=
  w.a = weightA ∧ (w.s = weightS ∨ w.s = (Weights.defaultR ρ).s) ∧
    (w.t = weightT ∨ w.t = (Weights.defaultR ρ).t)

theorem countEditsR_congr {ρ : Rounding} {w : Weights} (hw : SuppliedR ρ w) (nT : ℤ)
    (types : Finset ℤ) {e e' : Edits}
    (h1 : e.additions.length = e'.additions.length)
    (h2 : e.substitutions.length = e'.substitutions.length)
    (h3 : (e.substitutions.map (fun s => |s.typeA - s.typeB|)).sum =
      (e'.substitutions.map (fun s => |s.typeA - s.typeB|)).sum)
    (h4 : e.transpositions.Perm e'.transpositions) :
    countEditsR ρ w nT types e = countEditsR ρ w nT types e' := by
  obtain ⟨ha, hs, ht⟩ := hw
  have k1 : w.a e.additions = w.a e'.additions := by rw [ha, weightA, weightA, h1]
  have k2 : ∀ x y, w.s e.substitutions x y = w.s e'.substitutions x y := by
    intro x y
    rcases hs with hs | hs
    · rw [hs, weightS, weightS, h2]
    · rw [hs]
      simp only [Weights.defaultR, scalePairsR, spanSum_subs, subSum, h3]
  have k3 : w.t e.transpositions nT = w.t e'.transpositions nT := by
    rcases ht with ht | ht
    · rw [ht, weightT, weightT, h4.length_eq]
    · rw [ht]
      simp only [Weights.defaultR, scalePairsR]
      rw [spanSum_perm (h4.map _)]
  unfold countEditsR
  rw [k1, k3]
  simp only [k2]

theorem statsR_swap {ρ : Rounding} {rt rt' : Runtime} {w : Weights} (hw : SuppliedR ρ w) {nT : ℤ}
    {a b : BString} (hs : SharedTypes rt a b) (hs' : SharedTypes rt' a b) :
    SameStats (statisticsOfStringsR ρ rt w nT a b) (statisticsOfStringsR ρ rt' w nT b a) := by
  by_cases hl : a.length = b.length
  · simp only [statisticsOfStringsR, ne_eq, hl, not_true_eq_false, if_false]
    cases h1 : boundaryEditDistance rt a b nT with
    | error e =>
      cases h2 : boundaryEditDistance rt' b a nT with
      | error e' =>
        left
        rw [bed_error_kind hl h1, bed_error_kind hl.symm h2]
        exact ⟨_, rfl, rfl⟩
      | ok e' =>
        obtain ⟨e'', h3⟩ := (C11_symmetric_total rt rt' a b hl nT hs hs').2 ⟨e', h2⟩
        rw [h1] at h3; cases h3
    | ok e =>
      obtain ⟨e', h2⟩ := (C11_symmetric_total rt rt' a b hl nT hs hs').1 ⟨e, h1⟩
      obtain ⟨p1, p2, p3, p4, p5⟩ := C11_symmetric rt rt' a b hl nT hs hs' e e' h1 h2
      have hadd : e.additions.length = e'.additions.length := by
        rw [countP_sides e.additions, countP_sides e'.additions]; omega
      have hc := countEditsR_congr hw nT (identifyTypes a b) hadd p4 p5 p1
      rw [h2]
      simp only
      rw [identifyTypes_comm b a, hc]
      cases h3 : countEditsR ρ w nT (identifyTypes a b) e' with
      | error err => exact Or.inl ⟨err, rfl, rfl⟩
      | ok ce =>
        refine Or.inr ⟨_, _, rfl, rfl, ⟨rfl, ?_, ?_, ?_, rfl⟩⟩
        · simp only [editCount]; rw [hadd, p4, p1.length_eq]
        · simp only; rw [matches_length rt hl, matches_length rt' hl.symm, matchCount_comm hl]
        · simp only
  · left
    refine ⟨.segmentationMetricError, ?_, ?_⟩
    · rw [statisticsOfStringsR, if_pos hl]
    · rw [statisticsOfStringsR, if_pos (fun h => hl h.symm)]

theorem boundarySimR_same {ρ : Rounding} {rt rt' : Runtime} {kw : SimKw} {a b a' b' : Seg}
    (hr : kw.returnParts = false)
    (h : SameStats (boundaryStatisticsR ρ rt kw.boundaryFormat kw.nT kw.weight a b)
      (boundaryStatisticsR ρ rt' kw.boundaryFormat kw.nT kw.weight a' b')) :
    boundarySimilarityR ρ rt kw a b = boundarySimilarityR ρ rt' kw a' b' := by
  unfold boundarySimilarityR
  rcases h with ⟨e, h1, h2⟩ | ⟨st, st', h1, h2, h3⟩
  · rw [h1, h2]
  · rw [h1, h2]
    have he : (st.edits.additions.length : ℤ) + (st.edits.substitutions.length : ℤ) +
        (st.edits.transpositions.length : ℤ) = (st'.edits.additions.length : ℤ) +
        (st'.edits.substitutions.length : ℤ) + (st'.edits.transpositions.length : ℤ) := by
      have := h3.edits
      simp only [editCount] at this
      exact_mod_cast this
    simp only [he, h3.count, h3.matches_, hr]
    rfl

theorem segmentationSimR_same {ρ : Rounding} {rt rt' : Runtime} {kw : SimKw} {a b a' b' : Seg}
    (h : SameStats (boundaryStatisticsR ρ rt kw.boundaryFormat kw.nT kw.weight a b)
      (boundaryStatisticsR ρ rt' kw.boundaryFormat kw.nT kw.weight a' b')) :
    segmentationSimilarityR ρ rt kw a b = segmentationSimilarityR ρ rt' kw a' b' := by
  unfold segmentationSimilarityR
  rcases h with ⟨e, h1, h2⟩ | ⟨st, st', h1, h2, h3⟩
  · rw [h1, h2]
  · rw [h1, h2]
    simp only [h3.count, h3.pbs, h3.types]

theorem boundaryStatisticsR_denotes {ρ : Rounding} {rt : Runtime} {fmt : BoundaryFormat} {nT : ℤ}
    {w : Weights} {a b : Seg} {sa sb : BString} (ha : Denotes fmt a sa) (hb : Denotes fmt b sb) :
    boundaryStatisticsR ρ rt fmt nT w a b = statisticsOfStringsR ρ rt w nT sa sb := by
  rw [boundaryStatisticsR, toBStrings_denotes ha hb]

/-! ## Unscaled weights -/

theorem unscaled_int {rt : Runtime} {fmt : BoundaryFormat} {nT : ℤ} {a b : Seg} {st : Statistics}
    (h : boundaryStatistics rt fmt nT .unscaled a b = .ok st) : ∃ c, st.countEdits = .int c := by
  obtain ⟨sa, sb, _, h2⟩ := boundaryStatistics_ok h
  obtain ⟨_, _, _, hc, _⟩ := statistics_ok h2
  obtain ⟨mx, hmx, _⟩ := pyMax_ok (statistics_types_ne h2)
  obtain ⟨mn, hmn, _⟩ := pyMin_ok (statistics_types_ne h2)
  simp only [countEdits, Weights.unscaled, weightA, weightS, weightT, hmx, hmn, PyNum.add,
    Except.ok.injEq] at hc
  exact ⟨_, hc.symm⟩

theorem unscaled_ratio (ρ : Rounding) (n : ℤ) {D : ℤ} (hD : 0 < D) :
    ratioOrOne (.int n) D = .ok (.flt ((n : ℚ) / D)) ∧
    ratioOrOneR ρ (.int n) D = .ok (.flt (ρ.flt ((n : ℚ) / D))) := by
  have hne : (D : ℚ) ≠ 0 := by exact_mod_cast hD.ne'
  rw [ratioOrOneR, if_pos hD, ratioOrOne, if_pos hD]
  simp only [PyNum.truediv, PyNum.fltDiv, if_neg hne, PyNum.truedivR, PyNum.rnd, and_self]

end SegEval
