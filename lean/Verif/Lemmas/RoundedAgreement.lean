import Verif.Lemmas.RoundedSums

/-!
# Agreement with rounded arithmetic, beside the exact one
-/

namespace SegEval

open Spec

/-- One comparison: the range of types, the edits and the number of matches. -/
structure Comparison where
  range : ℤ
  edits : Edits
  matched : ℕ

namespace Comparison

/-- The denominator. -/
def den (t : Comparison) : ℕ := editCount t.edits + t.matched

/-- The numerator. -/
def num (r : ℚ → ℚ) (nT : ℤ) (t : Comparison) : ℚ :=
  r (t.den - roundedCost r nT t.range t.edits)

/-- What is known of every comparison. -/
structure Good (nT : ℤ) (t : Comparison) : Prop where
  script : ScriptBounds nT t.range t.edits
  pos : 0 < t.den

variable {r : ℚ → ℚ} {limit : ℕ} {nT : ℤ} {t : Comparison}

theorem Good.num_bounds (hr : Faithful r limit) (h : t.Good nT) (hl : t.den ≤ limit) :
    0 ≤ t.num r nT ∧ t.num r nT ≤ t.den := by
  have he : editCount t.edits ≤ t.den := by unfold den; omega
  obtain ⟨c0, c1⟩ := roundedCost_bounds hr h.script (by omega)
  have hq : (editCount t.edits : ℚ) ≤ t.den := by exact_mod_cast he
  exact ⟨hr.nonneg (by linarith), hr.le_nat hl (by linarith)⟩

theorem id_faithful (limit : ℕ) : Faithful (id : ℚ → ℚ) limit :=
  ⟨monotone_id, fun _ => rfl, fun _ _ => rfl⟩

theorem Good.exact_bounds (h : t.Good nT) : 0 ≤ t.num id nT ∧ t.num id nT ≤ t.den :=
  h.num_bounds (id_faithful t.den) le_rfl

theorem Good.num_accurate {eps : ℚ} (ha : Accurate r eps) (he : 0 ≤ eps) (h : t.Good nT) :
    |t.num r nT - t.num id nT| ≤ ((1 + eps) ^ 4 - 1) * t.den := by
  obtain ⟨c0, c1⟩ := roundedCost_bounds (id_faithful (editCount t.edits)) h.script le_rfl
  have hc := roundedCost_accurate ha he h.script
  have hq : (editCount t.edits : ℚ) ≤ t.den := by
    have : editCount t.edits ≤ t.den := by unfold den; omega
    exact_mod_cast this
  have hone : (1 : ℚ) ≤ (1 + eps) ^ 3 := one_le_pow₀ (by linarith)
  have h1 : |t.num id nT| ≤ t.den := by
    rw [abs_of_nonneg h.exact_bounds.1]; exact h.exact_bounds.2
  have h2 : |((t.den : ℚ) - roundedCost r nT t.range t.edits) - t.num id nT| ≤
      ((1 + eps) ^ 3 - 1) * t.den := by
    unfold num
    rw [show (t.den : ℚ) - roundedCost r nT t.range t.edits -
      id ((t.den : ℚ) - roundedCost id nT t.range t.edits) =
      -(roundedCost r nT t.range t.edits - roundedCost id nT t.range t.edits) by simp, abs_neg]
    refine le_trans hc (mul_le_mul_of_nonneg_left (by linarith) (by linarith))
  refine le_trans (accurate_step ha he h1 h2) (le_of_eq ?_)
  ring

theorem Good.num_full (hr : Faithful r limit) (hl : t.den ≤ limit)
    (h0 : editCount t.edits = 0) : t.num r nT = t.den := by
  unfold num
  have hs : t.edits.substitutions.length = 0 := by rw [editCount] at h0; omega
  have ht : t.edits.transpositions.length = 0 := by rw [editCount] at h0; omega
  rw [roundedCost_additions hr hs ht (by omega), h0, Nat.cast_zero, sub_zero, hr.nat hl]

theorem Good.gap (h : t.Good nT) {M : ℤ} (h1 : t.range ≤ M) (h2 : nT ≤ M)
    (h0 : editCount t.edits ≠ 0) : t.num id nT ≤ t.den - 1 / M := by
  have := (h.script.gap h1 h2).1 h0
  unfold num
  simp only [id]
  linarith

end Comparison

/-- The exact comparison, and the rounded one beside it. -/
theorem compareBR_pair (ρ : Rounding) (rt : Runtime) (nT : ℤ) (fmt : BoundaryFormat) (a b : Seg) :
    (∃ e, compareB rt nT .default fmt a b = .error e ∧
      compareBR ρ rt nT (.defaultR ρ) fmt a b = .error e) ∨
    ∃ t : Comparison, ∃ sa sb, t.Good nT ∧ toBString fmt a = .ok sa ∧ toBString fmt b = .ok sb ∧
      (editCount t.edits = 0 ↔ sa = sb) ∧ (∃ mx mn, Extremes sa sb mx mn ∧ t.range = mx - mn + 1) ∧
      compareB rt nT .default fmt a b = .ok (.dec (t.num id nT), .int t.den) ∧
      compareBR ρ rt nT (.defaultR ρ) fmt a b = .ok (.dec (t.num ρ.dec nT), .int t.den) := by
  unfold compareB compareBR
  by_cases ht : (a.truthy && b.truthy) = true
  · rw [if_pos ht, if_pos ht]
    cases hb : boundarySimilarity rt ⟨fmt, false, true, nT, .default⟩ a b with
    | error e =>
      left
      have h : boundarySimilarityR .exact rt ⟨fmt, false, true, nT, .defaultR .exact⟩ a b =
          .error e := by
        rw [weights_exact, boundarySimilarityR_exact]; exact hb
      have h' := boundarySimR_error .exact ρ (kw := ⟨fmt, false, true, nT, .default⟩) h
      simp only at h'
      exact ⟨e, rfl, by rw [h']⟩
    | ok v =>
      right
      obtain ⟨st, hst⟩ := boundarySim_stats hb
      simp only at hst
      obtain ⟨R, sa, sb, hB⟩ := beside_of_exact ρ hst
      have heq := boundarySim_eq (kw := ⟨fmt, false, true, nT, .default⟩) hst hB.count hB.den_pos
      have heqR := boundarySimR_eq (kw := ⟨fmt, false, true, nT, .defaultR ρ⟩) hB.rounded rfl
        hB.den_pos
      rw [hb] at heq
      simp only [if_true] at heq heqR
      rw [heq, heqR]
      obtain ⟨g1, g2⟩ := toBStrings_parts hB.strings
      refine ⟨⟨R, st.edits, st.matches'.length⟩, sa, sb, ⟨hB.script, hB.den_pos⟩, g1, g2, ?_,
        hB.extremes, ?_, rfl⟩
      · have := bed_edits (le_of_eq hB.len) hB.edits
        rw [this, edits_zero_iff hB.len]
      · rfl
  · rw [if_neg ht, if_neg ht]
    exact .inl ⟨_, rfl, rfl⟩

/-- The row of a job, exact and rounded. -/
theorem jobRowR_pair (ρ : Rounding) (rt : Runtime) (nT : ℤ) (fmt : BoundaryFormat) (j : Job) :
    (∃ e, jobRow (compareB rt nT .default) fmt j = .error e ∧
      jobRow (compareBR ρ rt nT (.defaultR ρ)) fmt j = .error e) ∨
    ∃ t : Comparison, ∃ sa sb, ∃ u v pbs ba bb, t.Good nT ∧ dictGet j.2.2 j.1.1 = some u ∧
      dictGet j.2.2 j.1.2 = some v ∧ toBString fmt u = .ok sa ∧ toBString fmt v = .ok sb ∧
      (editCount t.edits = 0 ↔ sa = sb) ∧ (∃ mx mn, Extremes sa sb mx mn ∧ t.range = mx - mn + 1) ∧
      jobRow (compareB rt nT .default) fmt j =
        .ok ⟨.dec (t.num id nT), .int t.den, pbs, ba, bb⟩ ∧
      jobRow (compareBR ρ rt nT (.defaultR ρ)) fmt j =
        .ok ⟨.dec (t.num ρ.dec nT), .int t.den, pbs, ba, bb⟩ := by
  unfold jobRow
  cases h1 : dictGet j.2.2 j.1.1 with
  | none => exact .inl ⟨_, rfl, rfl⟩
  | some u =>
    simp only
    cases h2 : dictGet j.2.2 j.1.2 with
    | none => exact .inl ⟨_, rfl, rfl⟩
    | some v =>
      simp only
      rcases compareBR_pair ρ rt nT fmt u v with ⟨e, h3, h4⟩ | ⟨t, sa, sb, hg, g1, g2, g3, g4, h3, h4⟩
      · rw [h3, h4]; exact .inl ⟨_, rfl, rfl⟩
      · rw [h3, h4]
        simp only
        cases potentialBoundaries fmt u v with
        | error e => exact .inl ⟨_, rfl, rfl⟩
        | ok pbs =>
          simp only
          cases boundariesOf fmt u with
          | error e => exact .inl ⟨_, rfl, rfl⟩
          | ok ba =>
            simp only
            cases boundariesOf fmt v with
            | error e => exact .inl ⟨_, rfl, rfl⟩
            | ok bb => exact .inr ⟨t, sa, sb, u, v, pbs, ba, bb, hg, rfl, rfl, g1, g2, g3, g4, rfl, rfl⟩

/-- The parts of the exact and of the rounded computation. -/
structure PartsPair (ρ : Rounding) (nT : ℤ) (fmt : BoundaryFormat) (l : List (Comparison × Job))
    (p p' : AgrParts) : Prop where
  good : ∀ t ∈ l, t.1.Good nT
  strings : ∀ t ∈ l, ∃ u v sa sb, dictGet t.2.2.2 t.2.1.1 = some u ∧
    dictGet t.2.2.2 t.2.1.2 = some v ∧ toBString fmt u = .ok sa ∧ toBString fmt v = .ok sb ∧
    (editCount t.1.edits = 0 ↔ sa = sb) ∧ ∃ mx mn, Extremes sa sb mx mn ∧ t.1.range = mx - mn + 1
  num : p.numerators = l.map fun t => .dec (t.1.num id nT)
  numR : p'.numerators = l.map fun t => .dec (t.1.num ρ.dec nT)
  den : p.denominators = l.map fun t => .int t.1.den
  denR : p'.denominators = l.map fun t => .int t.1.den
  pbs : p'.pbs = p.pbs
  cb : p'.codersBoundaries = p.codersBoundaries

theorem rowsR_loop (ρ : Rounding) (rt : Runtime) (nT : ℤ) (fmt : BoundaryFormat) (js : List Job)
    (l : List (Comparison × Job)) (acc acc' : AgrParts) (h : PartsPair ρ nT fmt l acc acc') :
    (∃ e, forLoop js acc (fun acc j =>
        match jobRow (compareB rt nT .default) fmt j with
        | .error e => .error e
        | .ok r => .ok (pushRow j.1.1 j.1.2 acc r)) = .error e ∧
      forLoop js acc' (fun acc j =>
        match jobRow (compareBR ρ rt nT (.defaultR ρ)) fmt j with
        | .error e => .error e
        | .ok r => .ok (pushRow j.1.1 j.1.2 acc r)) = .error e) ∨
    ∃ ts : List Comparison, ∃ p p', ts.length = js.length ∧ forLoop js acc (fun acc j =>
        match jobRow (compareB rt nT .default) fmt j with
        | .error e => .error e
        | .ok r => .ok (pushRow j.1.1 j.1.2 acc r)) = .ok p ∧
      forLoop js acc' (fun acc j =>
        match jobRow (compareBR ρ rt nT (.defaultR ρ)) fmt j with
        | .error e => .error e
        | .ok r => .ok (pushRow j.1.1 j.1.2 acc r)) = .ok p' ∧
      PartsPair ρ nT fmt (l ++ ts.zip js) p p' := by
  induction js generalizing l acc acc' with
  | nil => exact .inr ⟨[], acc, acc', rfl, rfl, rfl, by simpa using h⟩
  | cons j js ih =>
    simp only [forLoop]
    rcases jobRowR_pair ρ rt nT fmt j with ⟨e, h1, h2⟩ |
      ⟨t, sa, sb, u, v, pbs, ba, bb, hg, d1, d2, g1, g2, g3, g4, h1, h2⟩
    · rw [h1, h2]; exact .inl ⟨e, rfl, rfl⟩
    · rw [h1, h2]
      simp only
      have hnew : PartsPair ρ nT fmt (l ++ [(t, j)])
          (pushRow j.1.1 j.1.2 acc ⟨.dec (t.num id nT), .int t.den, pbs, ba, bb⟩)
          (pushRow j.1.1 j.1.2 acc' ⟨.dec (t.num ρ.dec nT), .int t.den, pbs, ba, bb⟩) := by
        refine ⟨?_, ?_, ?_, ?_, ?_, ?_, ?_, ?_⟩
        · intro x hx
          rcases List.mem_append.1 hx with hx | hx
          · exact h.good x hx
          · simp only [List.mem_singleton] at hx; subst hx; exact hg
        · intro x hx
          rcases List.mem_append.1 hx with hx | hx
          · exact h.strings x hx
          · simp only [List.mem_singleton] at hx; subst hx
            exact ⟨u, v, sa, sb, d1, d2, g1, g2, g3, g4⟩
        · simp [pushRow, h.num]
        · simp [pushRow, h.numR]
        · simp [pushRow, h.den]
        · simp [pushRow, h.denR]
        · simp [pushRow, h.pbs]
        · simp [pushRow, h.cb]
      rcases ih _ _ _ hnew with ⟨e, h3, h4⟩ | ⟨ts, p, p', hl, h3, h4, h5⟩
      · exact .inl ⟨e, h3, h4⟩
      · refine .inr ⟨t :: ts, p, p', by simp [hl], h3, h4, ?_⟩
        rw [List.zip_cons_cons]
        simpa using h5

theorem agreementPartsR_pair (ρ : Rounding) (rt : Runtime) (nT : ℤ) (fmt : BoundaryFormat)
    (coders : List Name) (items : Items) :
    (∃ e, agreementParts (compareB rt nT .default) fmt coders items = .error e ∧
      agreementParts (compareBR ρ rt nT (.defaultR ρ)) fmt coders items = .error e) ∨
    ∃ ts : List Comparison, ∃ p p', ts.length = (jobs coders items).length ∧
      agreementParts (compareB rt nT .default) fmt coders items = .ok p ∧
      agreementParts (compareBR ρ rt nT (.defaultR ρ)) fmt coders items = .ok p' ∧
      PartsPair ρ nT fmt (ts.zip (jobs coders items)) p p' := by
  rw [agreementParts_eq, agreementParts_eq]
  have := rowsR_loop ρ rt nT fmt (jobs coders items) [] {} {}
    ⟨by simp, by simp, rfl, rfl, rfl, rfl, rfl, rfl⟩
  simp only [List.nil_append] at this
  exact this

end SegEval
