import Verif.Lemmas.Formula
import Verif.Props.Similarity

/-!
# C64: boundary similarity and segmentation similarity are the published formulas
(and the parts of C06 and C23 about the lists of matches and misses)
-/

namespace SegEval.Props

open SegEval Spec

/-- C06: the misses listed by the statistics are the ones the edits account for. -/
theorem C06_full_misses (rt : Runtime) (fmt : BoundaryFormat) (nT : ℤ) (w : Weights) (a b : Seg)
    (sa sb : BString) (ha : Denotes fmt a sa) (hb : Denotes fmt b sb) (hs : SharedTypes rt sa sb)
    (st : Statistics) (h : boundaryStatistics rt fmt nT w a b = .ok st) :
    st.fullMisses.length = st.edits.additions.length + 2 * st.edits.substitutions.length +
      2 * st.edits.transpositions.length := by
  rw [boundaryStatistics_denotes ha hb] at h
  obtain ⟨hl, hbed, he, _, hf, _⟩ := statistics_ok h
  rw [hf, misses_length rt hl, he]
  exact sum_missed rt sa sb hl nT hs

/-- C23: the list of matches has every boundary both place, and the list of full misses every
boundary only one of them places, as often as there are positions. -/
theorem C23_lists (rt : Runtime) (fmt : BoundaryFormat) (nT : ℤ) (w : Weights) (a b : Seg)
    (sa sb : BString) (ha : Denotes fmt a sa) (hb : Denotes fmt b sb) (st : Statistics)
    (h : boundaryStatistics rt fmt nT w a b = .ok st) (t : ℤ) :
    st.matches'.count t = ((Finset.range sa.length).filter
      (fun p => t ∈ typesAt sa p ∧ t ∈ typesAt sb p)).card ∧
    st.fullMisses.count t =
      ((Finset.range sa.length).filter (fun p => t ∈ missedAt sa sb p)).card := by
  rw [boundaryStatistics_denotes ha hb] at h
  obtain ⟨hl, _, _, _, hf, _, hm, _⟩ := statistics_ok h
  rw [hf, hm]
  exact ⟨count_matchesFrom rt hl t, count_missesFrom rt hl t⟩

example : (boundaryStatistics .ascending .sets 2 .default (.sets exA) (.sets exB)).map
    (fun st => (st.matches'.count 2, st.fullMisses.count 1, st.fullMisses.length)) =
    .ok (2, 4, 6) := by decide +kernel

/-- C64: boundary similarity is the credit of the edit script over the number of its edits and
matches. -/
theorem C64_boundary (rt : Runtime) (kw : SimKw) (hw : kw.weight = .default)
    (hr : kw.returnParts = false) (ho : kw.oneMinus = false) (a b : Seg) (sa sb : BString)
    (ha : Denotes kw.boundaryFormat a sa) (hb : Denotes kw.boundaryFormat b sb) (mx mn : ℤ)
    (hx : Extremes sa sb mx mn) (e : Edits) (he : boundaryEditDistance rt sa sb kw.nT = .ok e)
    (x : ℚ) (h : Returns (boundarySimilarity rt kw a b) x) :
    x = scriptCredit kw.nT mx mn (matchCount sa sb) e / (editCount e + matchCount sa sb) := by
  obtain ⟨v, hv, rfl⟩ := h
  obtain ⟨st, hst⟩ := boundarySim_stats hv
  have hst' := hst
  rw [hw] at hst'
  obtain ⟨sa', sb', c, h1, hl, hed, hml, hc, _, _, _, _, hpos, _⟩ := default_facts hst'
  rw [toBStrings_denotes ha hb, Except.ok.injEq, Prod.mk.injEq] at h1
  obtain ⟨rfl, rfl⟩ := h1
  rw [boundaryStatistics_denotes ha hb] at hst'
  have hcost := default_cost hx hst'
  obtain ⟨_, hbed, he', _⟩ := statistics_ok hst'
  rw [hbed, Except.ok.injEq] at he
  rw [boundarySim_eq hst hcost hpos] at hv
  simp only [hr, ho, Bool.false_eq_true, if_false, Except.ok.injEq, MetricOut.num.injEq] at hv
  rw [← hv, scriptCredit_eq, ← hml, ← he, ← he']
  simp only [PyNum.val]
  push_cast
  rfl

/-- C64: segmentation similarity is one less the cost of the script over the potential boundaries,
positions times types, times the types again. -/
theorem C64_segmentation (rt : Runtime) (kw : SimKw) (hw : kw.weight = .default)
    (hr : kw.returnParts = false) (ho : kw.oneMinus = false) (a b : Seg) (sa sb : BString)
    (ha : Denotes kw.boundaryFormat a sa) (hb : Denotes kw.boundaryFormat b sb) (mx mn : ℤ)
    (hx : Extremes sa sb mx mn) (types : Finset ℤ) (ht : ∀ t, t ∈ types ↔ UsesType sa sb t)
    (e : Edits) (he : boundaryEditDistance rt sa sb kw.nT = .ok e)
    (x : ℚ) (h : Returns (segmentationSimilarity rt kw a b) x) :
    x = 1 - scriptCost kw.nT mx mn e / (sa.length * types.card * types.card) := by
  obtain ⟨v, hv, rfl⟩ := h
  obtain ⟨st, hst⟩ := segmentationSim_stats hv
  have hst' := hst
  rw [hw] at hst'
  obtain ⟨sa', sb', c, h1, hl, hed, hml, hc, _, _, _, _, _, hp, hty, hpos⟩ := default_facts hst'
  rw [toBStrings_denotes ha hb, Except.ok.injEq, Prod.mk.injEq] at h1
  obtain ⟨rfl, rfl⟩ := h1
  rw [boundaryStatistics_denotes ha hb] at hst'
  have hcost := default_cost hx hst'
  obtain ⟨_, hbed, he', _⟩ := statistics_ok hst'
  rw [hbed, Except.ok.injEq] at he
  have htypes : types = identifyTypes sa sb := by
    ext t; rw [ht, mem_identifyTypes]
  rw [segmentationSim_eq hst hcost hpos] at hv
  simp only [hr, ho, Bool.false_eq_true, if_false, Except.ok.injEq, MetricOut.num.injEq] at hv
  have hD : ((st.pbs * (st.boundaryTypes.card : ℤ) : ℤ) : ℚ) =
      sa.length * types.card * types.card := by
    rw [hp, hty, htypes, hl]; push_cast; ring
  have hD0 : ((st.pbs * (st.boundaryTypes.card : ℤ) : ℤ) : ℚ) ≠ 0 := by exact_mod_cast hpos.ne'
  rw [← hv, ← he, ← he', ← hD]
  simp only [PyNum.val]
  rw [sub_div, div_self hD0]

theorem exExtremes : Extremes exA exB 5 1 := by
  have h : identifyTypes exA exB = {1, 2, 3, 5} := by decide +kernel
  have hu : ∀ t, UsesType exA exB t ↔ t ∈ ({1, 2, 3, 5} : Finset ℤ) := by
    intro t; rw [← h, mem_identifyTypes]
  refine ⟨(hu 5).2 (by simp), (hu 1).2 (by simp), ?_, ?_⟩
  · intro t ht
    have := (hu t).1 ht
    simp only [Finset.mem_insert, Finset.mem_singleton] at this
    omega
  · intro t ht
    have := (hu t).1 ht
    simp only [Finset.mem_insert, Finset.mem_singleton] at this
    omega

/-- Two matches, the substitution of 3 by 1 in the range 1 to 5, a transposition over one position in
a window of 2 and two additions. -/
example : Returns (boundarySimilarity .ascending kwSets (.sets exA) (.sets exB))
      ((2 + (1 - 2 / 5) + (1 - 1 / 2)) / 6) ∧
    scriptCredit 2 5 1 (matchCount exA exB) ⟨[⟨1, .a⟩, ⟨5, .b⟩], [⟨3, 1⟩], [⟨1, 2, 1⟩]⟩ =
      2 + (1 - 2 / 5) + (1 - 1 / 2) :=
  ⟨⟨.dec (31 / 60), by decide +kernel, by norm_num [PyNum.val]⟩, by decide +kernel⟩

/-- C64: with the unscaled weights boundary similarity is the share of matches among matches and
edits, and segmentation similarity one less the edits over the potential boundaries. -/
theorem C64_unscaled (rt : Runtime) (kw : SimKw) (hw : kw.weight = .unscaled)
    (hr : kw.returnParts = false) (ho : kw.oneMinus = false) (a b : Seg) (sa sb : BString)
    (ha : Denotes kw.boundaryFormat a sa) (hb : Denotes kw.boundaryFormat b sb)
    (types : Finset ℤ) (ht : ∀ t, t ∈ types ↔ UsesType sa sb t)
    (e : Edits) (he : boundaryEditDistance rt sa sb kw.nT = .ok e) (x : ℚ) :
    (Returns (boundarySimilarity rt kw a b) x →
      x = matchCount sa sb / (matchCount sa sb + editCount e : ℚ)) ∧
    (Returns (segmentationSimilarity rt kw a b) x →
      x = 1 - editCount e / (sa.length * types.card * types.card)) := by
  have key : ∀ st, boundaryStatistics rt kw.boundaryFormat kw.nT kw.weight a b = .ok st →
      sa.length = sb.length ∧ st.countEdits = .int (editCount e) ∧ st.edits = e ∧
      st.matches'.length = matchCount sa sb ∧ st.boundaryTypes = types ∧
      st.pbs = sb.length * types.card ∧ types ≠ ∅ ∧ 0 < editCount e + matchCount sa sb := by
    intro st hst
    rw [hw, boundaryStatistics_denotes ha hb] at hst
    obtain ⟨hl, hbed, he', hce, _, _, hm, hp, hty⟩ := statistics_ok hst
    have hne := statistics_types_ne hst
    obtain ⟨mx, hmx, _⟩ := pyMax_ok hne
    obtain ⟨mn, hmn, _⟩ := pyMin_ok hne
    rw [hbed, Except.ok.injEq] at he
    have htypes : types = identifyTypes sa sb := by
      ext t; rw [ht, mem_identifyTypes]
    refine ⟨hl, ?_, he'.trans he, ?_, hty.trans htypes.symm, ?_, htypes ▸ hne, ?_⟩
    · simp only [countEdits, Weights.unscaled, weightA, weightS, weightT, hmx, hmn, PyNum.add,
        Except.ok.injEq] at hce
      rw [← hce, ← he, editCount]
      push_cast
      rfl
    · rw [hm, matches_length rt hl]
    · rw [hp, htypes]
    · rw [← he]; exact edits_matches_pos hl kw.nT hne
  constructor
  · rintro ⟨v, hv, rfl⟩
    obtain ⟨st, hst⟩ := boundarySim_stats hv
    obtain ⟨hl, hc, hed, hml, _, _, _, hpos⟩ := key st hst
    have hcast : (e.additions.length : ℤ) + (e.substitutions.length : ℤ) +
        (e.transpositions.length : ℤ) + (matchCount sa sb : ℤ) =
        ((editCount e + matchCount sa sb : ℕ) : ℤ) := by
      rw [editCount]; push_cast; rfl
    unfold boundarySimilarity at hv
    simp only [hst, hc, PyNum.sub, hed, hml, hr, ho, hcast, Bool.false_eq_true, if_false] at hv
    obtain ⟨y, hy, hval⟩ := ratioOrOne_val
      (.int (((editCount e + matchCount sa sb : ℕ) : ℤ) - (editCount e : ℤ)))
      (D := ((editCount e + matchCount sa sb : ℕ) : ℤ)) (by exact_mod_cast hpos)
    rw [hy] at hv
    simp only [applyOneMinus, Bool.false_eq_true, if_false, Except.ok.injEq,
      MetricOut.num.injEq] at hv
    rw [← hv, hval]
    simp only [PyNum.val]
    push_cast
    rw [add_comm (matchCount sa sb : ℚ), add_sub_cancel_left]
  · rintro ⟨v, hv, rfl⟩
    obtain ⟨st, hst⟩ := segmentationSim_stats hv
    obtain ⟨hl, hc, hed, hml, hty, hp, hne, hpos⟩ := key st hst
    have hk : 0 < types.card := Finset.card_pos.2 (Finset.nonempty_iff_ne_empty.2 hne)
    have hn : 0 < sb.length := by
      obtain ⟨t, h⟩ := Finset.nonempty_iff_ne_empty.2 hne
      obtain ⟨p, hp | hp⟩ := (ht t).1 h
      · by_contra hc
        rw [typesAt_beyond (by omega)] at hp; simp at hp
      · by_contra hc
        rw [typesAt_beyond (by omega)] at hp; simp at hp
    have hD : 0 < (sb.length : ℤ) * types.card * types.card := by positivity
    unfold segmentationSimilarity at hv
    simp only [hst, hc, PyNum.sub, hr, ho, hp, hty, Bool.false_eq_true, if_false] at hv
    obtain ⟨y, hy, hval⟩ := ratioOrOne_val
      (.int ((sb.length : ℤ) * types.card * types.card - (editCount e : ℤ))) hD
    rw [hy] at hv
    simp only [applyOneMinus, Bool.false_eq_true, if_false, Except.ok.injEq,
      MetricOut.num.injEq] at hv
    have hD0 : (((sb.length : ℤ) * types.card * types.card : ℤ) : ℚ) ≠ 0 := by
      exact_mod_cast hD.ne'
    rw [← hv, hval, hl]
    simp only [PyNum.val]
    push_cast at hD0 ⊢
    rw [sub_div, div_self hD0]

example : Returns (boundarySimilarity .ascending { kwSets with weight := .unscaled } (.sets exA)
    (.sets exB)) (2 / (2 + 4)) ∧
    Returns (segmentationSimilarity .ascending { kwSets with weight := .unscaled } (.sets exA)
      (.sets exB)) (1 - 4 / (exA.length * 4 * 4)) :=
  ⟨⟨.flt (1 / 3), by decide +kernel, by norm_num [PyNum.val]⟩,
    ⟨.flt (1 - 4 / (exA.length * 4 * 4)), by decide +kernel, by simp [PyNum.val]⟩⟩

end SegEval.Props
