import Verif.Lemmas.Wider
import Verif.Props.Locality

/-!
# C104: a larger n_t never lowers the similarities
-/

namespace SegEval.Props

open SegEval Spec

/-- C104 (partial): a larger `n_t` never lowers boundary similarity if at no position each
segmentation has a boundary type the other lacks, as when there is one type.

Missing: several types, for which the claim is false (`C104_two_types`). -/
theorem C104_boundary_partial (rt : Runtime) (kw : SimKw) (hw : kw.weight = .default)
    (hr : kw.returnParts = false) (ho : kw.oneMinus = false) (a b : Seg) (sa sb : BString)
    (ha : Denotes kw.boundaryFormat a sa) (hb : Denotes kw.boundaryFormat b sb)
    (hs : SharedTypes rt sa sb) (h1 : OneSided sa sb) (m : ℤ) (hm : kw.nT ≤ m) (x y : ℚ)
    (hx : Returns (boundarySimilarity rt kw a b) x)
    (hy : Returns (boundarySimilarity rt { kw with nT := m } a b) y) : x ≤ y := by
  obtain ⟨hl, hu, hbed, hpos, hval⟩ := boundary_value hw hr ho ha hb hx
  obtain ⟨-, -, hbed', hpos', hval'⟩ := boundary_value (kw := { kw with nT := m }) hw hr ho ha hb hy
  obtain ⟨mx, mn, he⟩ := extremes_exist hu
  rw [hval mx mn he, hval' mx mn he, credit_plain _ _ _ _ (no_substitutions hl h1 hbed),
    credit_plain _ _ _ _ (no_substitutions hl h1 hbed')]
  obtain ⟨w1, w2⟩ := wider hl hs hm hbed hbed'
  have h0 := credit_nonneg hl hbed
  refine div_le_div₀ ?_ ?_ ?_ ?_
  · have := credit_nonneg hl hbed'
    positivity
  · exact add_le_add_right w1 _
  · exact_mod_cast hpos'
  · exact add_le_add_left (by exact_mod_cast w2) _

/-- C104 (partial): a larger `n_t` never lowers segmentation similarity, under the same condition.

Missing: several types, for which the claim is false (`C104_two_types`). -/
theorem C104_segmentation_partial (rt : Runtime) (kw : SimKw) (hw : kw.weight = .default)
    (hr : kw.returnParts = false) (ho : kw.oneMinus = false) (a b : Seg) (sa sb : BString)
    (ha : Denotes kw.boundaryFormat a sa) (hb : Denotes kw.boundaryFormat b sb)
    (hs : SharedTypes rt sa sb) (h1 : OneSided sa sb) (m : ℤ) (hm : kw.nT ≤ m) (x y : ℚ)
    (hx : Returns (segmentationSimilarity rt kw a b) x)
    (hy : Returns (segmentationSimilarity rt { kw with nT := m } a b) y) : x ≤ y := by
  obtain ⟨hl, hu, hbed, hval⟩ := segmentation_value hw hr ho ha hb hx
  obtain ⟨-, -, hbed', hval'⟩ := segmentation_value (kw := { kw with nT := m }) hw hr ho ha hb hy
  obtain ⟨mx, mn, he⟩ := extremes_exist hu
  rw [hval mx mn he, hval' mx mn he, cost_plain _ _ _ (no_substitutions hl h1 hbed),
    cost_plain _ _ _ (no_substitutions hl h1 hbed')]
  obtain ⟨w1, w2⟩ := wider hl hs hm hbed hbed'
  have w2' : (editCount (editsOf rt sa sb m) : ℚ) ≤ editCount (editsOf rt sa sb kw.nT) := by
    exact_mod_cast w2
  have : (0 : ℚ) ≤ sa.length * (identifyTypes sa sb).card * (identifyTypes sa sb).card := by
    positivity
  have h2 : (editCount (editsOf rt sa sb m) - transpositionCredit m (editsOf rt sa sb m).transpositions : ℚ) ≤
      editCount (editsOf rt sa sb kw.nT) -
        transpositionCredit kw.nT (editsOf rt sa sb kw.nT).transpositions := by linarith
  have := div_le_div_of_nonneg_right h2 this
  linarith

/-- One boundary one position off, another two positions off. -/
def wideA : BString := [{1}, ∅, ∅, ∅, ∅, {1}, ∅, ∅, {1}]

/-- See `wideA`. -/
def wideB : BString := [∅, {1}, ∅, ∅, ∅, ∅, ∅, {1}, {1}]

example : OneSided wideA wideB ∧ wideA.length = wideB.length ∧
    Returns (boundarySimilarity .ascending { kwSets with nT := 1 } (.sets wideA) (.sets wideB)) (1 / 5) ∧
    Returns (boundarySimilarity .ascending { kwSets with nT := 2 } (.sets wideA) (.sets wideB)) (3 / 8) ∧
    Returns (boundarySimilarity .ascending { kwSets with nT := 3 } (.sets wideA) (.sets wideB))
      (2 / 3) := by
  refine ⟨?_, rfl, ⟨.dec (1 / 5), by decide +kernel, by norm_num [PyNum.val]⟩,
    ⟨.dec (3 / 8), by decide +kernel, by norm_num [PyNum.val]⟩,
    ⟨.dec (2 / 3), by decide +kernel, by norm_num [PyNum.val]⟩⟩
  have : ∀ s : BString, (∀ x ∈ s, x ⊆ ({1} : Finset ℤ)) → ∀ p, typesAt s p ⊆ {1} := by
    intro s hs p
    unfold typesAt
    cases h : s[p]? with
    | none => simp
    | some x => exact hs x (List.mem_of_getElem? h)
  exact oneSided_of_oneType (this wideA (by decide +kernel)) (this wideB (by decide +kernel))

/-- C104 for the unscaled weight functions: whatever the boundary types. -/
theorem C104_unscaled (rt : Runtime) (kw : SimKw) (hw : kw.weight = .unscaled)
    (hr : kw.returnParts = false) (ho : kw.oneMinus = false) (a b : Seg) (sa sb : BString)
    (ha : Denotes kw.boundaryFormat a sa) (hb : Denotes kw.boundaryFormat b sb)
    (hl : sa.length = sb.length) (hs : SharedTypes rt sa sb) (m : ℤ) (hm : kw.nT ≤ m)
    (e e' : Edits) (he : boundaryEditDistance rt sa sb kw.nT = .ok e)
    (he' : boundaryEditDistance rt sa sb m = .ok e') (x y : ℚ) :
    (Returns (boundarySimilarity rt kw a b) x →
      Returns (boundarySimilarity rt { kw with nT := m } a b) y → x ≤ y) ∧
    (Returns (segmentationSimilarity rt kw a b) x →
      Returns (segmentationSimilarity rt { kw with nT := m } a b) y → x ≤ y) := by
  obtain ⟨c1, c2⟩ := C64_unscaled rt kw hw hr ho a b sa sb ha hb _ (fun t => mem_identifyTypes) e he x
  obtain ⟨d1, d2⟩ := C64_unscaled rt { kw with nT := m } hw hr ho a b sa sb ha hb _
    (fun t => mem_identifyTypes) e' he' y
  have w : (editCount e' : ℚ) ≤ editCount e := by exact_mod_cast (wider hl hs hm he he').2
  constructor
  · intro hx hy
    rw [c1 hx, d1 hy]
    rcases Nat.eq_zero_or_pos (matchCount sa sb) with h0 | h0
    · simp [h0]
    · have : (0 : ℚ) < matchCount sa sb := by exact_mod_cast h0
      exact div_le_div_of_nonneg_left this.le (by positivity) (by linarith)
  · intro hx hy
    rw [c2 hx, d2 hy]
    have := div_le_div_of_nonneg_right w
      (show (0 : ℚ) ≤ sa.length * (identifyTypes sa sb).card * (identifyTypes sa sb).card by positivity)
    linarith

/-- C104 is false with two types: a transposition over two positions takes the place of a
substitution that costs less. -/
theorem C104_two_types :
    Returns (boundarySimilarity .ascending { kwSets with nT := 2 } (.sets [{1}, ∅, {2}])
      (.sets [{2}, ∅, {1, 2}])) (1 / 2) ∧
    Returns (boundarySimilarity .ascending { kwSets with nT := 3 } (.sets [{1}, ∅, {2}])
      (.sets [{2}, ∅, {1, 2}])) (4 / 9) ∧
    Returns (segmentationSimilarity .ascending { kwSets with nT := 2 } (.sets [{1}, ∅, {2}])
      (.sets [{2}, ∅, {1, 2}])) (7 / 8) ∧
    Returns (segmentationSimilarity .ascending { kwSets with nT := 3 } (.sets [{1}, ∅, {2}])
      (.sets [{2}, ∅, {1, 2}])) (31 / 36) := by
  refine ⟨⟨.dec (1 / 2), by decide +kernel, by norm_num [PyNum.val]⟩,
    ⟨.dec (4 / 9), by decide +kernel, by norm_num [PyNum.val]⟩,
    ⟨.dec (7 / 8), by decide +kernel, by norm_num [PyNum.val]⟩,
    ⟨.dec (31 / 36), by decide +kernel, by norm_num [PyNum.val]⟩⟩

/-- C104: without a window, and under the same condition, boundary similarity is the Jaccard index of
the two sets of boundaries. -/
theorem C104_jaccard (rt : Runtime) (kw : SimKw) (hw : kw.weight = .default)
    (hr : kw.returnParts = false) (ho : kw.oneMinus = false) (a b : Seg) (sa sb : BString)
    (ha : Denotes kw.boundaryFormat a sa) (hb : Denotes kw.boundaryFormat b sb)
    (hs : SharedTypes rt sa sb) (h1 : OneSided sa sb) (hn : kw.nT ≤ 1) (x : ℚ)
    (hx : Returns (boundarySimilarity rt kw a b) x) :
    x = (boundaries sa ∩ boundaries sb).card / (boundaries sa ∪ boundaries sb).card := by
  obtain ⟨hl, hu, hbed, hpos, hval⟩ := boundary_value hw hr ho ha hb hx
  obtain ⟨mx, mn, he⟩ := extremes_exist hu
  rw [hval mx mn he, credit_plain _ _ _ _ (no_substitutions hl h1 hbed),
    C13_no_window rt sa sb hl _ hn _ hbed, edits_card hl hs h1 hn hbed, matches_card]
  have : (symmDiff (boundaries sa) (boundaries sb)).card + (boundaries sa ∩ boundaries sb).card =
      (boundaries sa ∪ boundaries sb).card := by
    rw [← Finset.card_union_of_disjoint]
    · congr 1
      ext z
      simp only [Finset.mem_union, Finset.mem_symmDiff, Finset.mem_inter]
      tauto
    · rw [Finset.disjoint_left]
      intro z
      simp only [Finset.mem_symmDiff, Finset.mem_inter]
      tauto
  rw [← this]
  simp [transpositionCredit]

/-- C104: without a window, and under the same condition, segmentation similarity is one less the
number of boundaries only one segmentation has over the potential boundaries times the types; with
one type that is the share of positions they agree on. -/
theorem C104_agreeing (rt : Runtime) (kw : SimKw) (hw : kw.weight = .default)
    (hr : kw.returnParts = false) (ho : kw.oneMinus = false) (a b : Seg) (sa sb : BString)
    (ha : Denotes kw.boundaryFormat a sa) (hb : Denotes kw.boundaryFormat b sb)
    (hs : SharedTypes rt sa sb) (h1 : OneSided sa sb) (hn : kw.nT ≤ 1) (types : Finset ℤ)
    (ht : ∀ t, t ∈ types ↔ UsesType sa sb t) (x : ℚ)
    (hx : Returns (segmentationSimilarity rt kw a b) x) :
    x = 1 - (symmDiff (boundaries sa) (boundaries sb)).card /
      (sa.length * types.card * types.card) := by
  obtain ⟨hl, hu, hbed, hval⟩ := segmentation_value hw hr ho ha hb hx
  obtain ⟨mx, mn, he⟩ := extremes_exist hu
  have : types = identifyTypes sa sb := by ext t; rw [ht, mem_identifyTypes]
  rw [hval mx mn he, cost_plain _ _ _ (no_substitutions hl h1 hbed),
    C13_no_window rt sa sb hl _ hn _ hbed, edits_card hl hs h1 hn hbed, this]
  simp [transpositionCredit]

example : boundaries wideA = {(0, 1), (5, 1), (8, 1)} ∧
    boundaries wideB = {(1, 1), (7, 1), (8, 1)} := by decide +kernel

end SegEval.Props
