import Verif.Lemmas.Metric
import Verif.Props.Edit

namespace SegEval

open Spec Props

/-- Two statistics that both metrics cannot tell apart. -/
structure SameCounts (st st' : Statistics) : Prop where
  count : st.countEdits = st'.countEdits
  edits : editCount st.edits = editCount st'.edits
  matches_ : st.matches'.length = st'.matches'.length
  pbs : st.pbs = st'.pbs
  types : st.boundaryTypes.card = st'.boundaryTypes.card

/-- Both calls raise the same error, or both return statistics the metrics cannot tell apart. -/
def SameStats (r r' : Py Statistics) : Prop :=
  (∃ e, r = .error e ∧ r' = .error e) ∨ ∃ st st', r = .ok st ∧ r' = .ok st' ∧ SameCounts st st'

theorem SameStats.trans {r r' r'' : Py Statistics} (h : SameStats r r') (h' : SameStats r' r'') :
    SameStats r r'' := by
  rcases h with ⟨e, h1, h2⟩ | ⟨st, st', h1, h2, h3⟩
  · rcases h' with ⟨e', h1', h2'⟩ | ⟨_, _, h1', _⟩
    · rw [h2] at h1'; cases h1'; exact Or.inl ⟨e, h1, h2'⟩
    · rw [h2] at h1'; cases h1'
  · rcases h' with ⟨e', h1', _⟩ | ⟨_, st'', h1', h2', h3'⟩
    · rw [h2] at h1'; cases h1'
    · rw [h2] at h1'; cases h1'
      exact Or.inr ⟨st, st'', h1, h2', ⟨h3.count.trans h3'.count, h3.edits.trans h3'.edits,
        h3.matches_.trans h3'.matches_, h3.pbs.trans h3'.pbs, h3.types.trans h3'.types⟩⟩

theorem bed_error_kind {rt : Runtime} {a b : BString} (hl : a.length = b.length) {nT : ℤ} {e : PyErr}
    (h : boundaryEditDistance rt a b nT = .error e) : e = .assertionError := by
  by_cases hb : ∀ p < a.length, Balanced a b (allT rt a b nT) p
  · rw [bed_ok rt (le_of_eq hl) nT hb] at h; cases h
  · rw [bed_error rt (le_of_eq hl) nT hb] at h; cases h; rfl

theorem stats_swap {rt rt' : Runtime} {w : Weights} (hw : Supplied w) {nT : ℤ} {a b : BString}
    (hs : SharedTypes rt a b) (hs' : SharedTypes rt' a b) :
    SameStats (statisticsOfStrings rt w nT a b) (statisticsOfStrings rt' w nT b a) := by
  by_cases hl : a.length = b.length
  · simp only [statisticsOfStrings, ne_eq, hl, not_true_eq_false, if_false]
    cases h1 : boundaryEditDistance rt a b nT with
    | error e =>
      cases h2 : boundaryEditDistance rt' b a nT with
      | error e' =>
        left
        rw [bed_error_kind hl h1, bed_error_kind hl.symm h2]
        exact ⟨_, rfl, rfl⟩
      | ok e' =>
        obtain ⟨e'', h3⟩ := (C11_symmetric_total rt rt' a b hl nT hs hs').2 ⟨e', h2⟩
        rw [h1] at h3; cases h3
    | ok e =>
      obtain ⟨e', h2⟩ := (C11_symmetric_total rt rt' a b hl nT hs hs').1 ⟨e, h1⟩
      obtain ⟨p1, p2, p3, p4, p5⟩ := C11_symmetric rt rt' a b hl nT hs hs' e e' h1 h2
      have hadd : e.additions.length = e'.additions.length := by
        rw [countP_sides e.additions, countP_sides e'.additions]; omega
      have hc := countEdits_congr hw nT (identifyTypes a b) hadd p4 p5 p1
      rw [h2]
      simp only
      rw [identifyTypes_comm b a, hc]
      cases h3 : countEdits w nT (identifyTypes a b) e' with
      | error err => exact Or.inl ⟨err, rfl, rfl⟩
      | ok ce =>
        refine Or.inr ⟨_, _, rfl, rfl, ⟨rfl, ?_, ?_, ?_, rfl⟩⟩
        · simp only [editCount]; rw [hadd, p4, p1.length_eq]
        · simp only; rw [matches_length rt hl, matches_length rt' hl.symm, matchCount_comm hl]
        · simp only
  · left
    refine ⟨.segmentationMetricError, ?_, ?_⟩
    · rw [statisticsOfStrings, if_pos hl]
    · rw [statisticsOfStrings, if_pos (fun h => hl h.symm)]

theorem boundarySim_same {rt rt' : Runtime} {kw : SimKw} {a b a' b' : Seg}
    (hr : kw.returnParts = false)
    (h : SameStats (boundaryStatistics rt kw.boundaryFormat kw.nT kw.weight a b)
      (boundaryStatistics rt' kw.boundaryFormat kw.nT kw.weight a' b')) :
    boundarySimilarity rt kw a b = boundarySimilarity rt' kw a' b' := by
  unfold boundarySimilarity
  rcases h with ⟨e, h1, h2⟩ | ⟨st, st', h1, h2, h3⟩
  · rw [h1, h2]
  · rw [h1, h2]
    have he : (st.edits.additions.length : ℤ) + (st.edits.substitutions.length : ℤ) +
        (st.edits.transpositions.length : ℤ) = (st'.edits.additions.length : ℤ) +
        (st'.edits.substitutions.length : ℤ) + (st'.edits.transpositions.length : ℤ) := by
      have := h3.edits
      simp only [editCount] at this
      exact_mod_cast this
    simp only [he, h3.count, h3.matches_, hr]
    rfl

theorem segmentationSim_same {rt rt' : Runtime} {kw : SimKw} {a b a' b' : Seg}
    (h : SameStats (boundaryStatistics rt kw.boundaryFormat kw.nT kw.weight a b)
      (boundaryStatistics rt' kw.boundaryFormat kw.nT kw.weight a' b')) :
    segmentationSimilarity rt kw a b = segmentationSimilarity rt' kw a' b' := by
  unfold segmentationSimilarity
  rcases h with ⟨e, h1, h2⟩ | ⟨st, st', h1, h2, h3⟩
  · rw [h1, h2]
  · rw [h1, h2]
    simp only [h3.count, h3.pbs, h3.types]

theorem boundaryStatistics_denotes {rt : Runtime} {fmt : BoundaryFormat} {nT : ℤ} {w : Weights}
    {a b : Seg} {sa sb : BString} (ha : Denotes fmt a sa) (hb : Denotes fmt b sb) :
    boundaryStatistics rt fmt nT w a b = statisticsOfStrings rt w nT sa sb := by
  rw [boundaryStatistics, toBStrings_denotes ha hb]

end SegEval
