import Verif.Lemmas.Swap

/-!
# C05, C16–C24: boundary similarity, segmentation similarity and boundary statistics
-/

namespace SegEval.Props

open SegEval Spec

/-- The strings of `exA`/`exB` as arguments. -/
def kwSets : SimKw := { boundaryFormat := .sets }

/-- Masses, as a tuple of ints. -/
def massSeg (l : List ℤ) : Seg := .ints true (l.map (fun m => ⟨m, 0⟩))

theorem massSeg_denotes (l : List ℤ) (h : l ≠ []) (hp : ∀ m ∈ l, 0 < m) (s : BString)
    (hs : boundaryStringFromMasses l = .ok s) : Denotes .mass (massSeg l) s := by
  refine ⟨massPat l, ?_, ?_⟩
  · have : (l.map (fun m => (⟨m, 0⟩ : Obj))).map Obj.val = l := by simp [Function.comp_def]
    show MassMeans ((l.map (fun m => (⟨m, 0⟩ : Obj))).map Obj.val) _
    rw [this]; exact (massMeans_iff _ _).2 ⟨h, hp, rfl⟩
  · rw [boundaryString_eq l hp h, Except.ok.injEq] at hs
    exact hs.symm

/-- C05: the similarity metrics and statistics depend only on the boundary string denoted, not on
the format it is given in. -/
theorem C05_similarity_formats (rt : Runtime) (kw : SimKw) (fmt fmt' : BoundaryFormat)
    (a b a' b' : Seg) (sa sb : BString) (ha : Denotes fmt a sa) (hb : Denotes fmt b sb)
    (ha' : Denotes fmt' a' sa) (hb' : Denotes fmt' b' sb) :
    boundaryStatistics rt fmt kw.nT kw.weight a b = boundaryStatistics rt fmt' kw.nT kw.weight a' b' ∧
    boundarySimilarity rt { kw with boundaryFormat := fmt } a b =
      boundarySimilarity rt { kw with boundaryFormat := fmt' } a' b' ∧
    segmentationSimilarity rt { kw with boundaryFormat := fmt } a b =
      segmentationSimilarity rt { kw with boundaryFormat := fmt' } a' b' := by
  have h : boundaryStatistics rt fmt kw.nT kw.weight a b =
      boundaryStatistics rt fmt' kw.nT kw.weight a' b' := by
    rw [boundaryStatistics_denotes ha hb, boundaryStatistics_denotes ha' hb']
  refine ⟨h, ?_, ?_⟩
  · unfold boundarySimilarity
    simp only [h]
  · unfold segmentationSimilarity
    simp only [h]

/-- One segmentation of six units, in all four formats. -/
example : Denotes .mass (massSeg [2, 1, 3]) [∅, {1}, {1}, ∅, ∅] ∧
    Denotes .position (.ints true [⟨7, 0⟩, ⟨7, 0⟩, ⟨2, 0⟩, ⟨7, 0⟩, ⟨7, 0⟩, ⟨7, 0⟩])
      [∅, {1}, {1}, ∅, ∅] ∧
    Denotes .nltk (.str ['0', '1', '1', '0', '0']) [∅, {1}, {1}, ∅, ∅] ∧
    Denotes .sets (.sets [∅, {1}, {1}, ∅, ∅]) [∅, {1}, {1}, ∅, ∅] := by
  refine ⟨massSeg_denotes _ (by simp) (by decide) _ (by decide +kernel), ?_, ?_, rfl⟩
  · exact ⟨[false, true, true, false, false],
      (labelsMean_iff _ _).2 ⟨by simp, by decide +kernel⟩, by decide +kernel⟩
  · exact ⟨[false, true, true, false, false],
      (stringMeans_iff _ _ _).2 (by decide +kernel), by decide +kernel⟩

/-- C16: different numbers of units raise `SegmentationMetricError`. -/
theorem C16_similarity_lengths_partial (rt : Runtime) (kw : SimKw) (a b : Seg) (sa sb : BString)
    (ha : Denotes kw.boundaryFormat a sa) (hb : Denotes kw.boundaryFormat b sb)
    (hne : sa.length ≠ sb.length) :
    boundarySimilarity rt kw a b = .error .segmentationMetricError ∧
    segmentationSimilarity rt kw a b = .error .segmentationMetricError ∧
    boundaryStatistics rt kw.boundaryFormat kw.nT kw.weight a b =
      .error .segmentationMetricError := by
  have h : boundaryStatistics rt kw.boundaryFormat kw.nT kw.weight a b =
      .error .segmentationMetricError := by
    rw [boundaryStatistics_denotes ha hb, statisticsOfStrings, if_pos hne]
  refine ⟨?_, ?_, h⟩
  · unfold boundarySimilarity; rw [h]
  · unfold segmentationSimilarity; rw [h]

example : boundarySimilarity .ascending {} (massSeg [2, 3]) (massSeg [2, 4]) =
    .error .segmentationMetricError := by decide +kernel

/-- C16 refuted for the direct call: boundaries of a longer second string are silently ignored. -/
theorem C16_edit_distance_drops (rt : Runtime) (a b extra : BString) (hl : a.length = b.length)
    (nT : ℤ) : boundaryEditDistance rt a (b ++ extra) nT = boundaryEditDistance rt a b nT := by
  have hb : ∀ p < a.length, (b ++ extra)[p]? = b[p]? := fun p hp =>
    List.getElem?_append_left (by omega)
  have h1 : optionalSetEdits a (b ++ extra) = optionalSetEdits a b := by
    funext p
    unfold optionalSetEdits
    by_cases hp : p < a.length
    · rw [hb p hp]
    · rw [List.getElem?_eq_none (by omega : a.length ≤ p)]
  have h2 : transpositionsLoop rt a (b ++ extra) nT = transpositionsLoop rt a b nT := by
    funext o
    unfold transpositionsLoop
    refine forLoop_congr _ _ (fun s span _ => ?_)
    unfold transpSpan
    refine forLoop_congr _ _ (fun s i hi => ?_)
    rw [List.mem_range] at hi
    unfold transpPosition
    simp only [hb i (by omega), hb (i + span) (by omega)]
  unfold boundaryEditDistance
  rw [h1, h2]
  have h3 : min a.length (b ++ extra).length = min a.length b.length := by
    rw [List.length_append]; omega
  rw [h3]

/-- C16: a longer first string is not ignored (for windows of at least 2): an exception is
raised. -/
theorem C16_edit_distance_raises (rt : Runtime) (a b : BString) (nT : ℤ) (hn : 2 ≤ nT)
    (hl : b.length < a.length) (h2 : 2 ≤ a.length) :
    ∃ err, boundaryEditDistance rt a b nT = .error err := by
  have h1 : ∃ err, transpositionsLoop rt a b nT (optionalSetEdits a b) = .error err := by
    refine forLoop_raises _ _ 1 (mem_spans.2 ⟨by omega, by push_cast; omega⟩) (fun s => ?_) _
    refine forLoop_raises _ _ (b.length - 1) (List.mem_range.2 (by omega)) (fun s => ?_) _
    refine ⟨.indexError, ?_⟩
    unfold transpPosition
    simp only [List.getElem?_eq_none (by omega : b.length ≤ b.length - 1 + 1)]
    split
    · rename_i h; cases h
    · rfl
  obtain ⟨err, h⟩ := h1
  exact ⟨err, by rw [boundaryEditDistance, h]⟩

example : boundaryEditDistance .ascending [{1}, ∅] [{1}, ∅, {1}] 2 = .ok ⟨[], [], []⟩ ∧
    boundaryEditDistance .ascending [{1}, ∅, {1}] [{1}, ∅] 2 = .error .indexError := by
  decide +kernel

/-- C17: with the default weights, the value is in `[0, 1]`, with or without `one_minus`. -/
theorem C17_range (rt : Runtime) (kw : SimKw) (hw : kw.weight = .default) (a b : Seg) (x : ℚ)
    (h : Returns (boundarySimilarity rt kw a b) x) : 0 ≤ x ∧ x ≤ 1 := by
  obtain ⟨v, h, rfl⟩ := h
  obtain ⟨st, hst⟩ := boundarySim_stats h
  obtain ⟨sa, sb, c, h1, hl, he, hm, hc, c0, c1, c2, c3, hD, _⟩ := default_facts (hw ▸ hst)
  rw [boundarySim_eq hst hc hD] at h
  simp only at h
  split at h
  · cases h
  · simp only [Except.ok.injEq, MetricOut.num.injEq] at h
    subst h
    set D : ℚ := ((editCount st.edits + st.matches'.length : ℕ) : ℚ) with hDdef
    have hD' : 0 < D := by rw [hDdef]; exact_mod_cast hD
    have hcD : c ≤ D := by
      refine c1.trans ?_
      rw [hDdef]; push_cast
      have : (0 : ℚ) ≤ (st.matches'.length : ℚ) := Nat.cast_nonneg _
      linarith
    have k0 : 0 ≤ (D - c) / D := div_nonneg (by linarith) hD'.le
    have k1 : (D - c) / D ≤ 1 := by rw [div_le_one hD']; linarith
    simp only [PyNum.val]
    split
    · constructor <;> linarith
    · exact ⟨k0, k1⟩

/-- C17: `one_minus` returns the complement. -/
theorem C17_one_minus (rt : Runtime) (kw : SimKw) (hw : kw.weight = .default)
    (hr : kw.returnParts = false) (a b : Seg) (x : ℚ)
    (h : Returns (boundarySimilarity rt { kw with oneMinus := false } a b) x) :
    Returns (boundarySimilarity rt { kw with oneMinus := true } a b) (1 - x) := by
  obtain ⟨v, h, rfl⟩ := h
  obtain ⟨st, hst⟩ := boundarySim_stats h
  simp only at hst
  obtain ⟨sa, sb, c, h1, hl, he, hm, hc, c0, c1, c2, c3, hD, _⟩ := default_facts (hw ▸ hst)
  rw [boundarySim_eq (kw := { kw with oneMinus := false }) hst hc hD] at h
  simp only [hr, Bool.false_eq_true, if_false, Except.ok.injEq, MetricOut.num.injEq] at h
  subst h
  refine ⟨_, by rw [boundarySim_eq (kw := { kw with oneMinus := true }) hst hc hD]; simp only [hr]; rfl, ?_⟩
  simp [PyNum.val]

/-- C17: when it returns: strings of equal length with some boundary, window not 0, and at most 256
differing types at a position. -/
theorem C17_total (rt : Runtime) (kw : SimKw) (hw : kw.weight = .default)
    (hr : kw.returnParts = false) (a b : Seg) (sa sb : BString)
    (ha : Denotes kw.boundaryFormat a sa) (hb : Denotes kw.boundaryFormat b sb)
    (hl : sa.length = sb.length) (hn : kw.nT ≠ 0) (ht : ∃ t, UsesType sa sb t)
    (hsmall : ∀ p, (missedAt sa sb p).card ≤ 256) :
    (∃ x, Returns (boundarySimilarity rt kw a b) x) ∧
    ∃ x, Returns (segmentationSimilarity rt kw a b) x := by
  obtain ⟨st, hst⟩ := boundaryStatistics_exists (rt := rt) (toBStrings_denotes ha hb) hl hn ht hsmall
  obtain ⟨_, _, c, h1, _, he, hm, hc, c0, c1, c2, c3, hD, hp, hty, hP⟩ := default_facts hst
  rw [← hw] at hst
  refine ⟨⟨_, _, by rw [boundarySim_eq hst hc hD]; simp only [hr]; rfl, rfl⟩,
    ⟨_, _, by rw [segmentationSim_eq hst hc hP]; simp only [hr]; rfl, rfl⟩⟩

example : Returns (boundarySimilarity .ascending kwSets (.sets exA) (.sets exB)) (31 / 60) :=
  ⟨.dec (31 / 60), by decide +kernel, rfl⟩

/-- C18: similarity 1 means the same boundaries. -/
theorem C18_one_iff (rt : Runtime) (kw : SimKw) (hw : kw.weight = .default)
    (ho : kw.oneMinus = false) (a b : Seg) (sa sb : BString)
    (ha : Denotes kw.boundaryFormat a sa) (hb : Denotes kw.boundaryFormat b sb) (x : ℚ)
    (h : Returns (boundarySimilarity rt kw a b) x) : x = 1 ↔ sa = sb := by
  obtain ⟨v, h, rfl⟩ := h
  obtain ⟨st, hst⟩ := boundarySim_stats h
  obtain ⟨sa', sb', c, h1, hl, he, hm, hc, c0, c1, c2, c3, hD, _⟩ := default_facts (hw ▸ hst)
  rw [toBStrings_denotes ha hb] at h1
  simp only [Except.ok.injEq, Prod.mk.injEq] at h1
  obtain ⟨rfl, rfl⟩ := h1
  rw [boundarySim_eq hst hc hD] at h
  simp only [ho] at h
  split at h
  · cases h
  · simp only [Except.ok.injEq, MetricOut.num.injEq] at h
    subst h
    have hD' : (0 : ℚ) < ((editCount st.edits + st.matches'.length : ℕ) : ℚ) := by exact_mod_cast hD
    rw [← edits_zero_iff (rt := rt) hl kw.nT, ← he, ← c2]
    simp only [PyNum.val, Bool.false_eq_true, if_false]
    rw [div_eq_one_iff_eq hD'.ne']
    constructor <;> intro h0 <;> linarith

/-- C18: similarity 0 means that nothing matches or could be confused (the strings never both place
boundaries at a position) and nothing is near (no transposition within the window is possible). -/
theorem C18_zero_iff (rt : Runtime) (kw : SimKw) (hw : kw.weight = .default)
    (ho : kw.oneMinus = false) (a b : Seg) (sa sb : BString)
    (ha : Denotes kw.boundaryFormat a sa) (hb : Denotes kw.boundaryFormat b sb) (x : ℚ)
    (h : Returns (boundarySimilarity rt kw a b) x) :
    x = 0 ↔ NeverTogether sa sb ∧ ¬ ∃ t, Genuine sa sb kw.nT t := by
  obtain ⟨v, h, rfl⟩ := h
  obtain ⟨st, hst⟩ := boundarySim_stats h
  obtain ⟨sa', sb', c, h1, hl, he, hm, hc, c0, c1, c2, c3, hD, _⟩ := default_facts (hw ▸ hst)
  rw [toBStrings_denotes ha hb] at h1
  simp only [Except.ok.injEq, Prod.mk.injEq] at h1
  obtain ⟨rfl, rfl⟩ := h1
  rw [boundarySim_eq hst hc hD] at h
  simp only [ho] at h
  split at h
  · cases h
  · simp only [Except.ok.injEq, MetricOut.num.injEq] at h
    subst h
    have hD' : (0 : ℚ) < ((editCount st.edits + st.matches'.length : ℕ) : ℚ) := by exact_mod_cast hD
    rw [← all_additions_iff (rt := rt) hl kw.nT, ← hm, ← he, ← c3]
    simp only [PyNum.val, Bool.false_eq_true, if_false]
    rw [div_eq_zero_iff, or_iff_left hD'.ne']
    push_cast
    have hm0 : (0 : ℚ) ≤ (st.matches'.length : ℚ) := Nat.cast_nonneg _
    constructor
    · intro h0
      refine ⟨by linarith, ?_⟩
      have : (st.matches'.length : ℚ) = 0 := by linarith
      exact_mod_cast this
    · rintro ⟨h0, h2⟩
      rw [h2, h0]; simp

example : Returns (boundarySimilarity .ascending {} (massSeg [1, 5, 1]) (massSeg [3, 4])) 0 ∧
    Returns (boundarySimilarity .ascending {} (massSeg [1, 5, 1]) (massSeg [1, 5, 1])) 1 ∧
    Returns (boundarySimilarity .ascending {} (massSeg [1, 6]) (massSeg [2, 5])) (1 / 2) :=
  ⟨⟨.dec 0, by decide +kernel, rfl⟩, ⟨.dec 1, by decide +kernel, rfl⟩,
    ⟨.dec (1 / 2), by decide +kernel, rfl⟩⟩

/-- C19: boundary similarity is symmetric, also in which errors it raises, whatever the orders sets
are visited in. -/
theorem C19_boundary_symmetric (rt rt' : Runtime) (kw : SimKw) (hw : Supplied kw.weight)
    (hr : kw.returnParts = false) (a b : Seg) (sa sb : BString)
    (ha : Denotes kw.boundaryFormat a sa) (hb : Denotes kw.boundaryFormat b sb)
    (hs : SharedTypes rt sa sb) (hs' : SharedTypes rt' sa sb) :
    boundarySimilarity rt kw a b = boundarySimilarity rt' kw b a := by
  refine boundarySim_same hr ?_
  rw [boundaryStatistics_denotes ha hb, boundaryStatistics_denotes hb ha]
  exact stats_swap hw hs hs'

/-- C19: segmentation similarity is symmetric, also in its parts. -/
theorem C19_segmentation_symmetric (rt rt' : Runtime) (kw : SimKw) (hw : Supplied kw.weight)
    (a b : Seg) (sa sb : BString)
    (ha : Denotes kw.boundaryFormat a sa) (hb : Denotes kw.boundaryFormat b sb)
    (hs : SharedTypes rt sa sb) (hs' : SharedTypes rt' sa sb) :
    segmentationSimilarity rt kw a b = segmentationSimilarity rt' kw b a := by
  refine segmentationSim_same ?_
  rw [boundaryStatistics_denotes ha hb, boundaryStatistics_denotes hb ha]
  exact stats_swap hw hs hs'

/-- C19 for the formats with one boundary type: no condition on objects. -/
theorem C19_symmetric_one_type (rt rt' : Runtime) (kw : SimKw) (hw : Supplied kw.weight)
    (hr : kw.returnParts = false) (hf : kw.boundaryFormat ≠ .sets) (a b : Seg) (sa sb : BString)
    (ha : Denotes kw.boundaryFormat a sa) (hb : Denotes kw.boundaryFormat b sb) :
    boundarySimilarity rt kw a b = boundarySimilarity rt' kw b a ∧
    segmentationSimilarity rt kw a b = segmentationSimilarity rt' kw b a :=
  ⟨C19_boundary_symmetric rt rt' kw hw hr a b sa sb ha hb (denotes_shared rt ha hb hf)
      (denotes_shared rt' ha hb hf),
    C19_segmentation_symmetric rt rt' kw hw a b sa sb ha hb (denotes_shared rt ha hb hf)
      (denotes_shared rt' ha hb hf)⟩

example : Supplied .default ∧ Supplied .unscaled ∧
    Returns (boundarySimilarity .ascending kwSets (.sets exB) (.sets exA)) (31 / 60) :=
  ⟨⟨rfl, Or.inr rfl, Or.inr rfl⟩, ⟨rfl, Or.inl rfl, Or.inl rfl⟩,
    ⟨.dec (31 / 60), by decide +kernel, rfl⟩⟩

/-- C59: neither similarity depends on the orders sets are visited in. -/
theorem C59_order_independent (rt rt' : Runtime) (kw : SimKw) (hw : Supplied kw.weight)
    (hr : kw.returnParts = false) (a b : Seg) (sa sb : BString)
    (ha : Denotes kw.boundaryFormat a sa) (hb : Denotes kw.boundaryFormat b sb)
    (hs : SharedTypes rt sa sb) (hs' : SharedTypes rt' sa sb) :
    boundarySimilarity rt kw a b = boundarySimilarity rt' kw a b ∧
    segmentationSimilarity rt kw a b = segmentationSimilarity rt' kw a b :=
  ⟨(C19_boundary_symmetric rt rt' kw hw hr a b sa sb ha hb hs hs').trans
      (C19_boundary_symmetric rt' rt' kw hw hr b a sb sa hb ha (sharedTypes_comm hs')
        (sharedTypes_comm hs')),
    (C19_segmentation_symmetric rt rt' kw hw a b sa sb ha hb hs hs').trans
      (C19_segmentation_symmetric rt' rt' kw hw b a sb sa hb ha (sharedTypes_comm hs')
        (sharedTypes_comm hs'))⟩

/-- C20: segmentation similarity is in `[0, 1]`, with or without `one_minus`. -/
theorem C20_range (rt : Runtime) (kw : SimKw) (hw : kw.weight = .default) (a b : Seg)
    (sa sb : BString) (ha : Denotes kw.boundaryFormat a sa) (hb : Denotes kw.boundaryFormat b sb)
    (hs : SharedTypes rt sa sb) (x : ℚ)
    (h : Returns (segmentationSimilarity rt kw a b) x) : 0 ≤ x ∧ x ≤ 1 := by
  obtain ⟨v, h, rfl⟩ := h
  obtain ⟨st, hst⟩ := segmentationSim_stats h
  obtain ⟨sa', sb', c, h1, hl, he, hm, hc, c0, c1, c2, c3, _, hp, hty, hD⟩ := default_facts (hw ▸ hst)
  rw [toBStrings_denotes ha hb] at h1
  simp only [Except.ok.injEq, Prod.mk.injEq] at h1
  obtain ⟨rfl, rfl⟩ := h1
  rw [segmentationSim_eq hst hc hD] at h
  simp only at h
  split at h
  · cases h
  · simp only [Except.ok.injEq, MetricOut.num.injEq] at h
    subst h
    set D : ℚ := ((st.pbs * (st.boundaryTypes.card : ℤ) : ℤ) : ℚ) with hDdef
    have hD' : 0 < D := by rw [hDdef]; exact_mod_cast hD
    have hcD : c ≤ D := by
      have := edits_pbs hl hs kw.nT
      rw [← he] at this
      have k : ((editCount st.edits : ℤ) : ℚ) ≤ D := by
        rw [hDdef]; rw [hp, hty]; exact_mod_cast this.2
      exact c1.trans (by exact_mod_cast k)
    have k0 : 0 ≤ (D - c) / D := div_nonneg (by linarith) hD'.le
    have k1 : (D - c) / D ≤ 1 := by rw [div_le_one hD']; linarith
    simp only [PyNum.val]
    split
    · constructor <;> linarith
    · exact ⟨k0, k1⟩

/-- C20: segmentation similarity 1 means the same boundaries. -/
theorem C20_one_iff (rt : Runtime) (kw : SimKw) (hw : kw.weight = .default)
    (ho : kw.oneMinus = false) (a b : Seg) (sa sb : BString)
    (ha : Denotes kw.boundaryFormat a sa) (hb : Denotes kw.boundaryFormat b sb) (x : ℚ)
    (h : Returns (segmentationSimilarity rt kw a b) x) : x = 1 ↔ sa = sb := by
  obtain ⟨v, h, rfl⟩ := h
  obtain ⟨st, hst⟩ := segmentationSim_stats h
  obtain ⟨sa', sb', c, h1, hl, he, hm, hc, c0, c1, c2, c3, _, hp, hty, hD⟩ := default_facts (hw ▸ hst)
  rw [toBStrings_denotes ha hb] at h1
  simp only [Except.ok.injEq, Prod.mk.injEq] at h1
  obtain ⟨rfl, rfl⟩ := h1
  rw [segmentationSim_eq hst hc hD] at h
  simp only [ho] at h
  split at h
  · cases h
  · simp only [Except.ok.injEq, MetricOut.num.injEq] at h
    subst h
    have hD' : (0 : ℚ) < ((st.pbs * (st.boundaryTypes.card : ℤ) : ℤ) : ℚ) := by exact_mod_cast hD
    rw [← edits_zero_iff (rt := rt) hl kw.nT, ← he, ← c2]
    simp only [PyNum.val, Bool.false_eq_true, if_false]
    rw [div_eq_one_iff_eq hD'.ne']
    constructor <;> intro h0 <;> linarith

/-- C20: boundary similarity never exceeds segmentation similarity. -/
theorem C20_boundary_le_segmentation (rt : Runtime) (kw : SimKw) (hw : kw.weight = .default)
    (ho : kw.oneMinus = false) (a b : Seg) (sa sb : BString)
    (ha : Denotes kw.boundaryFormat a sa) (hb : Denotes kw.boundaryFormat b sb)
    (hs : SharedTypes rt sa sb) (x y : ℚ) (hx : Returns (boundarySimilarity rt kw a b) x)
    (hy : Returns (segmentationSimilarity rt kw a b) y) : x ≤ y := by
  obtain ⟨v, h, rfl⟩ := hx
  obtain ⟨u, h', rfl⟩ := hy
  obtain ⟨st, hst⟩ := segmentationSim_stats h'
  obtain ⟨sa', sb', c, h1, hl, he, hm, hc, c0, c1, c2, c3, hD1, hp, hty, hD⟩ := default_facts (hw ▸ hst)
  rw [toBStrings_denotes ha hb] at h1
  simp only [Except.ok.injEq, Prod.mk.injEq] at h1
  obtain ⟨rfl, rfl⟩ := h1
  rw [segmentationSim_eq hst hc hD] at h'
  rw [boundarySim_eq hst hc hD1] at h
  simp only [ho] at h h'
  split at h
  · cases h
  · rename_i hr
    rw [if_neg hr] at h'
    simp only [Except.ok.injEq, MetricOut.num.injEq, Bool.false_eq_true, if_false] at h h'
    subst h h'
    have hb' : (0 : ℚ) < ((editCount st.edits + st.matches'.length : ℕ) : ℚ) := by exact_mod_cast hD1
    have hle : ((editCount st.edits + st.matches'.length : ℕ) : ℚ) ≤
        ((st.pbs * (st.boundaryTypes.card : ℤ) : ℤ) : ℚ) := by
      have := edits_pbs hl hs kw.nT
      rw [← he, ← hm] at this
      rw [hp, hty]
      exact_mod_cast this.1
    have hs' : (0 : ℚ) < ((st.pbs * (st.boundaryTypes.card : ℤ) : ℤ) : ℚ) := hb'.trans_le hle
    simp only [PyNum.val]
    rw [sub_div, sub_div, div_self hb'.ne', div_self hs'.ne']
    have := div_le_div_of_nonneg_left c0 hb' hle
    linarith

example : Returns (segmentationSimilarity .ascending kwSets (.sets exA) (.sets exB)) (771 / 800) :=
  ⟨.dec (771 / 800), by decide +kernel, rfl⟩

/-- C21 (partial): with one boundary type the denominator is the number of potential boundaries.
Missing: false with more types, see `C21_denominator_wrong`. -/
theorem C21_denominator_partial (rt : Runtime) (kw : SimKw) (a b : Seg) (sa sb : BString)
    (ha : Denotes kw.boundaryFormat a sa) (hb : Denotes kw.boundaryFormat b sb)
    (t : ℤ) (ht : ∀ u, UsesType sa sb u ↔ u = t) (n d : PyNum)
    (h : segmentationSimilarity rt kw a b = .ok (.parts n d)) :
    d = .int (sa.length * 1) := by
  obtain ⟨st, hst⟩ := segmentationSim_stats h
  have hst' := hst
  rw [boundaryStatistics_denotes ha hb] at hst'
  obtain ⟨hl, _, _, _, _, _, _, hp, hty⟩ := statistics_ok hst'
  have hk : identifyTypes sa sb = {t} := by
    ext u; rw [mem_identifyTypes, ht, Finset.mem_singleton]
  unfold segmentationSimilarity at h
  rw [hst] at h
  simp only [hp, hty, hk, Finset.card_singleton] at h
  split at h
  · cases h
  · split at h
    · simp only [Except.ok.injEq, MetricOut.parts.injEq] at h
      rw [← h.2, hl]; simp
    · split at h
      · cases h
      · unfold applyOneMinus at h
        split at h
        · split at h <;> cases h
        · cases h

/-- C21 refuted: the denominator counts the boundary types twice, for every input. -/
theorem C21_denominator_wrong (rt : Runtime) (kw : SimKw) (a b : Seg) (sa sb : BString)
    (ha : Denotes kw.boundaryFormat a sa) (hb : Denotes kw.boundaryFormat b sb)
    (types : Finset ℤ) (ht : ∀ u, UsesType sa sb u ↔ u ∈ types) (n d : PyNum)
    (h : segmentationSimilarity rt kw a b = .ok (.parts n d)) :
    d = .int (sa.length * types.card * types.card) := by
  obtain ⟨st, hst⟩ := segmentationSim_stats h
  have hst' := hst
  rw [boundaryStatistics_denotes ha hb] at hst'
  obtain ⟨hl, _, _, _, _, _, _, hp, hty⟩ := statistics_ok hst'
  have hk : identifyTypes sa sb = types := by
    ext u; rw [mem_identifyTypes, ht]
  unfold segmentationSimilarity at h
  rw [hst] at h
  simp only [hp, hty, hk] at h
  split at h
  · cases h
  · split at h
    · simp only [Except.ok.injEq, MetricOut.parts.injEq] at h
      rw [← h.2, hl]
    · split at h
      · cases h
      · unfold applyOneMinus at h
        split at h
        · split at h <;> cases h
        · cases h

/-- C21 refuted: three positions and two types are six potential boundaries, reported as 12. -/
theorem C21_denominator_wrong_witness : ∃ n : PyNum,
    segmentationSimilarity .ascending { boundaryFormat := .sets, returnParts := true }
      (.sets [{1}, ∅, {2}]) (.sets [{1}, ∅, ∅]) = .ok (.parts n (.int 12)) :=
  ⟨.dec 11, by decide +kernel⟩

example : segmentationSimilarity .ascending { returnParts := true } (massSeg [2, 3, 1])
    (massSeg [2, 2, 2]) = .ok (.parts (.dec (9 / 2)) (.int 5)) := by decide +kernel

/-- C22 (partial): a segmentation with at least one boundary has similarity 1 to itself.
Missing: without boundaries an exception is raised, see `C22_no_boundaries`. -/
theorem C22_self_partial (rt : Runtime) (kw : SimKw) (hw : kw.weight = .default)
    (ho : kw.oneMinus = false) (hr : kw.returnParts = false) (hn : kw.nT ≠ 0) (a : Seg)
    (s : BString) (ha : Denotes kw.boundaryFormat a s) (t : ℤ) (p : ℕ) (ht : t ∈ typesAt s p) :
    Returns (boundarySimilarity rt kw a a) 1 ∧ Returns (segmentationSimilarity rt kw a a) 1 := by
  obtain ⟨⟨x, hx⟩, ⟨y, hy⟩⟩ := C17_total rt kw hw hr a a s s ha ha rfl hn ⟨t, p, Or.inl ht⟩
    (fun p => by simp [missedAt, onlyIn])
  have h1 := (C18_one_iff rt kw hw ho a a s s ha ha x hx).2 rfl
  have h2 := (C20_one_iff rt kw hw ho a a s s ha ha y hy).2 rfl
  subst h1 h2
  exact ⟨hx, hy⟩

/-- C22 refuted: two segmentations without boundaries raise `ValueError`, even if identical. -/
theorem C22_no_boundaries (rt : Runtime) (kw : SimKw) (hw : Supplied kw.weight) (a b : Seg)
    (sa sb : BString) (ha : Denotes kw.boundaryFormat a sa) (hb : Denotes kw.boundaryFormat b sb)
    (hl : sa.length = sb.length) (hea : ∀ p, typesAt sa p = ∅) (heb : ∀ p, typesAt sb p = ∅) :
    boundarySimilarity rt kw a b = .error .valueError ∧
    segmentationSimilarity rt kw a b = .error .valueError := by
  have hmiss : ∀ p, missedAt sa sb p = ∅ := by intro p; simp [missedAt, onlyIn, hea, heb]
  have hbed := bed_ok rt (le_of_eq hl) kw.nT (fun p _ => by
    have := leftover_empty_of_missed (hmiss p) (allT rt sa sb kw.nT)
    simp [Balanced, this.1, this.2])
  have hty : identifyTypes sa sb = ∅ := by
    apply Finset.eq_empty_of_forall_notMem
    intro t ht
    obtain ⟨p, h | h⟩ := mem_identifyTypes.1 ht
    · rw [hea] at h; simp at h
    · rw [heb] at h; simp at h
  have hst : boundaryStatistics rt kw.boundaryFormat kw.nT kw.weight a b = .error .valueError := by
    rw [boundaryStatistics_denotes ha hb, statisticsOfStrings, if_neg (by rw [not_not]; exact hl)]
    simp only [hbed, hty, countEdits, hw.1, weightA, pyMax_empty]
  constructor
  · unfold boundarySimilarity; rw [hst]
  · unfold segmentationSimilarity; rw [hst]

example : boundarySimilarity .ascending {} (massSeg [5]) (massSeg [5]) = .error .valueError ∧
    Returns (boundarySimilarity .ascending {} (massSeg [2, 3]) (massSeg [2, 3])) 1 :=
  ⟨by decide +kernel, ⟨.dec 1, by decide +kernel, rfl⟩⟩

/-- C23: the statistics are consistent with the segmentations and with each other. -/
theorem C23_statistics (rt : Runtime) (fmt : BoundaryFormat) (nT : ℤ) (w : Weights) (a b : Seg)
    (sa sb : BString) (ha : Denotes fmt a sa) (hb : Denotes fmt b sb) (st : Statistics)
    (h : boundaryStatistics rt fmt nT w a b = .ok st) :
    st.boundariesAll = 2 * st.matches'.length + st.fullMisses.length ∧
    st.boundariesAll = ((boundaryCount sa + boundaryCount sb : ℕ) : ℤ) ∧
    st.matches'.length = matchCount sa sb ∧
    st.pbs = (sa.length : ℤ) * (st.boundaryTypes.card : ℤ) ∧
    (∀ t, t ∈ st.boundaryTypes ↔ UsesType sa sb t) ∧
    boundaryEditDistance rt sa sb nT = .ok st.edits := by
  rw [boundaryStatistics_denotes ha hb] at h
  obtain ⟨hl, hbed, he, _, hf, hba, hm, hp, hty⟩ := statistics_ok h
  refine ⟨?_, ?_, ?_, ?_, ?_, ?_⟩
  · rw [hba, hm, hf, boundariesAll_count hl, matches_length rt hl, misses_length rt hl]
    exact_mod_cast count_all hl
  · rw [hba, boundariesAll_count hl]
  · rw [hm, matches_length rt hl]
  · rw [hp, hty, hl]
  · intro t; rw [hty, mem_identifyTypes]
  · rw [hbed, he]

/-- C23: the weighted count is between 0 and the number of edits for the default weights, and is
the number of edits for the unscaled ones. -/
theorem C23_count_edits (rt : Runtime) (fmt : BoundaryFormat) (nT : ℤ) (a b : Seg)
    (st : Statistics) :
    (boundaryStatistics rt fmt nT .default a b = .ok st →
      0 ≤ st.countEdits.val ∧ st.countEdits.val ≤ editCount st.edits) ∧
    (boundaryStatistics rt fmt nT .unscaled a b = .ok st →
      st.countEdits.val = editCount st.edits) := by
  constructor
  · intro h
    obtain ⟨_, _, c, _, _, _, _, hc, c0, c1, _⟩ := default_facts h
    rw [hc]; exact ⟨c0, c1⟩
  · intro h
    obtain ⟨sa, sb, _, h2⟩ := boundaryStatistics_ok h
    obtain ⟨_, _, he, hce, _⟩ := statistics_ok h2
    obtain ⟨mx, hmx, _⟩ := pyMax_ok (statistics_types_ne h2)
    obtain ⟨mn, hmn, _⟩ := pyMin_ok (statistics_types_ne h2)
    simp only [countEdits, Weights.unscaled, weightA, weightS, weightT, hmx, hmn, PyNum.add,
      Except.ok.injEq] at hce
    rw [← hce, he, editCount]
    simp [PyNum.val]

example : (boundaryStatistics .ascending .sets 2 .default (.sets exA) (.sets exB)).map
    (fun st => (st.matches', st.boundariesAll, st.boundaryTypes, st.countEdits)) =
    .ok ([2, 2], 10, {1, 2, 3, 5}, .dec (29 / 10)) := by decide +kernel

/-- C24: for any weights, the returned parts have the value as quotient. -/
theorem C24_boundary_parts (rt : Runtime) (kw : SimKw) (om : Bool) (a b : Seg) (n d : PyNum)
    (e : Edits)
    (h : boundarySimilarity rt { kw with returnParts := true, oneMinus := om } a b =
      .ok (.bparts n d e)) :
    Returns (boundarySimilarity rt { kw with returnParts := false, oneMinus := false } a b)
      (n.val / d.val) ∧ 0 < d.val := by
  obtain ⟨st, hst⟩ := boundarySim_stats h
  simp only at hst
  have hD := stats_den_pos hst
  unfold boundarySimilarity at h ⊢
  simp only [hst] at h ⊢
  split at h
  · cases h
  · rename_i x hx
    simp only [if_true, Except.ok.injEq, MetricOut.bparts.injEq] at h
    obtain ⟨rfl, rfl, rfl⟩ := h
    simp only [Bool.false_eq_true, if_false]
    obtain ⟨v, hv, hval⟩ := ratioOrOne_val x hD
    rw [hv]
    exact ⟨⟨v, rfl, hval⟩, by simp only [PyNum.val]; exact_mod_cast hD⟩

/-- C24: the parts of segmentation similarity. -/
theorem C24_segmentation_parts (rt : Runtime) (kw : SimKw) (om : Bool) (a b : Seg) (n d : PyNum)
    (h : segmentationSimilarity rt { kw with returnParts := true, oneMinus := om } a b =
      .ok (.parts n d)) :
    Returns (segmentationSimilarity rt { kw with returnParts := false, oneMinus := false } a b)
      (n.val / d.val) ∧ 0 < d.val := by
  obtain ⟨st, hst⟩ := segmentationSim_stats h
  simp only at hst
  have hD := stats_pbs_pos hst
  unfold segmentationSimilarity at h ⊢
  simp only [hst] at h ⊢
  split at h
  · cases h
  · rename_i x hx
    simp only [if_true, Except.ok.injEq, MetricOut.parts.injEq] at h
    obtain ⟨rfl, rfl⟩ := h
    simp only [Bool.false_eq_true, if_false]
    obtain ⟨v, hv, hval⟩ := ratioOrOne_val x hD
    rw [hv]
    exact ⟨⟨v, rfl, hval⟩, by simp only [PyNum.val]; exact_mod_cast hD⟩

/-- C24: `one_minus` gives 1 minus the value, provided the value is not a float. -/
theorem C24_one_minus_partial (rt : Runtime) (kw : SimKw) (hr : kw.returnParts = false) (a b : Seg)
    (v : PyNum) (hv : v.NoFlt) :
    (boundarySimilarity rt { kw with oneMinus := false } a b = .ok (.num v) →
      Returns (boundarySimilarity rt { kw with oneMinus := true } a b) (1 - v.val)) ∧
    (segmentationSimilarity rt { kw with oneMinus := false } a b = .ok (.num v) →
      Returns (segmentationSimilarity rt { kw with oneMinus := true } a b) (1 - v.val)) := by
  have key : ∃ u, applyOneMinus true v = .ok (.num u) ∧ u.val = 1 - v.val := by
    cases v with
    | int n => exact ⟨_, rfl, rfl⟩
    | dec q => exact ⟨_, rfl, rfl⟩
    | flt q => exact absurd hv (by simp [PyNum.NoFlt])
  obtain ⟨u, hu, huv⟩ := key
  constructor
  · intro h
    unfold boundarySimilarity at h ⊢
    simp only [hr, Bool.false_eq_true, if_false] at h ⊢
    split at h
    · cases h
    · split at h
      · cases h
      · split at h
        · cases h
        · simp only [applyOneMinus, Bool.false_eq_true, if_false, Except.ok.injEq,
            MetricOut.num.injEq] at h
          subst h
          exact ⟨u, hu, huv⟩
  · intro h
    unfold segmentationSimilarity at h ⊢
    simp only [hr, Bool.false_eq_true, if_false] at h ⊢
    split at h
    · cases h
    · split at h
      · cases h
      · split at h
        · cases h
        · simp only [applyOneMinus, Bool.false_eq_true, if_false, Except.ok.injEq,
            MetricOut.num.injEq] at h
          subst h
          exact ⟨u, hu, huv⟩

/-- C24 refuted: with the unscaled weights the value is a float, and `one_minus` then always raises
`TypeError`. -/
theorem C24_unscaled_one_minus (rt : Runtime) (kw : SimKw) (hr : kw.returnParts = false)
    (hw : kw.weight = .unscaled) (a b : Seg) (v : PyNum)
    (h : boundarySimilarity rt { kw with oneMinus := false } a b = .ok (.num v)) :
    (∃ q, v = .flt q) ∧
    boundarySimilarity rt { kw with oneMinus := true } a b = .error .typeError := by
  obtain ⟨st, hst⟩ := boundarySim_stats h
  simp only at hst
  have hD := stats_den_pos hst
  have hce : ∃ n : ℤ, st.countEdits = .int n := by
    obtain ⟨sa, sb, _, h2⟩ := boundaryStatistics_ok hst
    obtain ⟨_, _, he, hce, _⟩ := statistics_ok h2
    obtain ⟨mx, hmx, _⟩ := pyMax_ok (statistics_types_ne h2)
    obtain ⟨mn, hmn, _⟩ := pyMin_ok (statistics_types_ne h2)
    rw [hw] at hce
    simp only [countEdits, Weights.unscaled, weightA, weightS, weightT, hmx, hmn, PyNum.add,
      Except.ok.injEq] at hce
    exact ⟨_, hce.symm⟩
  obtain ⟨c, hc⟩ := hce
  unfold boundarySimilarity at h ⊢
  simp only [hst, hc, PyNum.sub, hr, Bool.false_eq_true, if_false] at h ⊢
  obtain ⟨q, hq⟩ := ratioOrOne_int _ hD
  rw [hq] at h ⊢
  simp only [applyOneMinus, Bool.false_eq_true, if_false, Except.ok.injEq, MetricOut.num.injEq] at h
  exact ⟨⟨q, h.symm⟩, rfl⟩

example : boundarySimilarity .ascending { weight := .unscaled } (massSeg [2, 3, 1]) (massSeg [2, 2, 2]) =
      .ok (.num (.flt (1 / 2))) ∧
    boundarySimilarity .ascending { weight := .unscaled, oneMinus := true } (massSeg [2, 3, 1])
      (massSeg [2, 2, 2]) = .error .typeError ∧
    boundarySimilarity .ascending { returnParts := true } (massSeg [2, 3, 1]) (massSeg [2, 2, 2]) =
      .ok (.bparts (.dec (3 / 2)) (.int 2) ⟨[], [], [⟨3, 4, 1⟩]⟩) := by decide +kernel

end SegEval.Props
