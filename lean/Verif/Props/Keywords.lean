import Verif.Lemmas.Keywords
import Verif.Props.Agreement

/-!
# Properties of the keyword arguments (C123)
-/

namespace SegEval.Props

open SegEval SegEval.Spec

theorem pairB_eq (rt : Runtime) (k : Kwargs) (a b : Seg) : boundarySimilarityPair rt k a b =
    if a.truthy && b.truthy then
      if simTakes k then boundarySimilarity rt (askedSimilarity k) a b else .error .typeError
    else .error .segmentationMetricError := by
  cases ha : a.truthy <;> cases hb : b.truthy <;>
    simp only [boundarySimilarityPair, metricOfPair, ha, hb, Bool.and_false,
      Bool.and_true, if_true, if_false, Bool.false_eq_true]
  rw [show (similarityDefaults.update k).delPermuted =
    .ok { similarityDefaults.update k with permuted := none } by rw [update_similarity]; rfl]
  simp only [runB, bindSimilarity_update, true_and]
  cases simTakes k <;> simp

theorem pairS_eq (rt : Runtime) (k : Kwargs) (a b : Seg) : segmentationSimilarityPair rt k a b =
    if a.truthy && b.truthy then
      if simTakes k then segmentationSimilarity rt (askedSimilarity k) a b else .error .typeError
    else .error .segmentationMetricError := by
  cases ha : a.truthy <;> cases hb : b.truthy <;>
    simp only [segmentationSimilarityPair, metricOfPair, ha, hb, Bool.and_false,
      Bool.and_true, if_true, if_false, Bool.false_eq_true]
  rw [show (similarityDefaults.update k).delPermuted =
    .ok { similarityDefaults.update k with permuted := none } by rw [update_similarity]; rfl]
  simp only [runS, bindSimilarity_update, true_and]
  cases simTakes k <;> simp

theorem pairConfusion_eq (rt : Runtime) (k : Kwargs) (a b : Seg) :
    boundaryConfusionMatrixPair rt k a b =
    if a.truthy && b.truthy then
      if simTakes k then boundaryConfusionMatrix rt (askedSimilarity k) a b else .error .typeError
    else .error .segmentationMetricError := by
  cases ha : a.truthy <;> cases hb : b.truthy <;>
    simp only [boundaryConfusionMatrixPair, metricOfPair, ha, hb, Bool.and_false,
      Bool.and_true, if_true, if_false, Bool.false_eq_true]
  rw [show (similarityDefaults.update k).delPermuted =
    .ok { similarityDefaults.update k with permuted := none } by rw [update_similarity]; rfl]
  simp only [runConfusion, bindSimilarity_update, true_and]
  cases simTakes k <;> simp

theorem pairPk_eq (k : Kwargs) (a b : Seg) : pkPair k a b =
    if a.truthy && b.truthy then
      if pkTakes k then pk { askedWindow k with lamprierFix := false } a b else .error .typeError
    else .error .segmentationMetricError := by
  cases ha : a.truthy <;> cases hb : b.truthy <;>
    simp only [pkPair, metricOfPair, ha, hb, Bool.and_false,
      Bool.and_true, if_true, if_false, Bool.false_eq_true]
  rw [show (windowDefaults.update k).delPermuted =
    .ok { windowDefaults.update k with permuted := none } by rw [update_window]; rfl]
  simp only [runPk, bindPk_update, true_and]
  cases pkTakes k <;> simp

theorem pairWindowDiff_eq (k : Kwargs) (a b : Seg) : windowDiffPair k a b =
    if a.truthy && b.truthy then
      if wdTakes k then windowDiff (askedWindow k) a b else .error .typeError
    else .error .segmentationMetricError := by
  cases ha : a.truthy <;> cases hb : b.truthy <;>
    simp only [windowDiffPair, metricOfPair, ha, hb, Bool.and_false,
      Bool.and_true, if_true, if_false, Bool.false_eq_true]
  rw [show (windowDiffDefaults.update k).delPermuted =
    .ok { windowDiffDefaults.update k with permuted := none } by rw [update_windowDiff]; rfl]
  simp only [runWindowDiff, bindWindowDiff_update, true_and]
  cases wdTakes k <;> simp

theorem pairStatistics_eq (rt : Runtime) (k : Kwargs) (a b : Seg) :
    boundaryStatisticsPair rt k a b =
    if a.truthy && b.truthy then
      if statTakes k then
        boundaryStatistics rt (k.boundaryFormat.getD .mass) (k.nT.getD 2) (k.weight.getD .default) a b
      else .error .typeError
    else .error .segmentationMetricError := by
  obtain ⟨d, hd, hu⟩ := delParts_defaults
  simp only [boundaryStatisticsPair, hd]
  cases ha : a.truthy <;> cases hb : b.truthy <;>
    simp only [metricOfPair, ha, hb, Bool.and_false,
      Bool.and_true, if_true, if_false, Bool.false_eq_true]
  simp only [hu, Kwargs.delPermuted, Option.isSome_some, if_true, runStatistics, bindStatistics]
  cases h : statTakes k with
  | true => simp_all [statTakes, simTakes]
  | false =>
    have h' : (Option.isSome (none : Option Bool) || k.oneMinus.isSome || k.returnParts.isSome ||
        k.windowSize.isSome || k.fncRound.isSome || k.lamprierFix.isSome || k.datasetB.isSome ||
        !k.others.isEmpty) = true := by
      revert h
      simp only [statTakes, simTakes]
      generalize k.oneMinus.isSome = x1
      generalize k.returnParts.isSome = x2
      generalize k.windowSize.isSome = x3
      generalize k.fncRound.isSome = x4
      generalize k.lamprierFix.isSome = x5
      generalize k.datasetB.isSome = x6
      generalize k.others.isEmpty = x7
      revert x1 x2 x3 x4 x5 x6 x7
      decide
    simp only [h', if_true, Bool.false_eq_true, if_false]

/-- C123: a keyword that a metric does not have, say because it is misspelt, is refused with a
`TypeError`: no metric of two segmentations ignores it. -/
theorem C123_unknown_refused (rt : Runtime) (k : Kwargs) {a b : Seg} (ha : a.truthy = true)
    (hb : b.truthy = true) :
    (SomeUnknown similarityParameters k →
      boundarySimilarityPair rt k a b = .error .typeError ∧
      segmentationSimilarityPair rt k a b = .error .typeError ∧
      boundaryConfusionMatrixPair rt k a b = .error .typeError) ∧
    (SomeUnknown statisticsParameters k → boundaryStatisticsPair rt k a b = .error .typeError) ∧
    (SomeUnknown pkParameters k → pkPair k a b = .error .typeError) ∧
    (SomeUnknown windowDiffParameters k → windowDiffPair k a b = .error .typeError) := by
  refine ⟨fun h => ?_, fun h => ?_, fun h => ?_, fun h => ?_⟩
  · rw [pairB_eq, pairS_eq, pairConfusion_eq]
    simp [ha, hb, not_simTakes h]
  · rw [pairStatistics_eq]
    simp [ha, hb, not_statTakes h]
  · rw [pairPk_eq]
    simp [ha, hb, not_pkTakes h]
  · rw [pairWindowDiff_eq]
    simp [ha, hb, not_wdTakes h]

/-- C123: with keywords that the metric has, the call is the call that the other properties are
about: each keyword has the value given, or its default. -/
theorem C123_known_taken (rt : Runtime) (k : Kwargs) (hw : WrittenOnce k) {a b : Seg}
    (ha : a.truthy = true) (hb : b.truthy = true) :
    (AllKnown similarityParameters k →
      boundarySimilarityPair rt k a b = boundarySimilarity rt (askedSimilarity k) a b ∧
      segmentationSimilarityPair rt k a b = segmentationSimilarity rt (askedSimilarity k) a b ∧
      boundaryConfusionMatrixPair rt k a b = boundaryConfusionMatrix rt (askedSimilarity k) a b) ∧
    (AllKnown statisticsParameters k →
      boundaryStatisticsPair rt k a b = boundaryStatistics rt (askedSimilarity k).boundaryFormat
        (askedSimilarity k).nT (askedSimilarity k).weight a b) ∧
    (AllKnown pkParameters k →
      pkPair k a b = pk { askedWindow k with lamprierFix := false } a b) ∧
    (AllKnown windowDiffParameters k → windowDiffPair k a b = windowDiff (askedWindow k) a b) := by
  refine ⟨fun h => ?_, fun h => ?_, fun h => ?_, fun h => ?_⟩
  · rw [pairB_eq, pairS_eq, pairConfusion_eq]
    simp [ha, hb, simTakes_known hw h]
  · rw [pairStatistics_eq]
    simp [ha, hb, statTakes_known hw h, askedSimilarity]
  · rw [pairPk_eq]
    simp [ha, hb, pkTakes_known hw h]
  · rw [pairWindowDiff_eq]
    simp [ha, hb, wdTakes_known hw h]

/-- Masses as a tuple. -/
def exTuple (l : List ℤ) : Seg := .ints true (l.map (fun x => ⟨x, 0⟩))

/-- `window_size=2` misspelt, and `n_t=1`. -/
example : SomeUnknown pkParameters { others := ["widow_size".toList] } ∧
    pkPair { others := ["widow_size".toList] } (exTuple [2, 3]) (exTuple [3, 2]) =
      .error .typeError ∧
    AllKnown similarityParameters { nT := some 1 } ∧ WrittenOnce { nT := some 1 } ∧
    boundarySimilarityPair .ascending { nT := some 1 } (exTuple [2, 3]) (exTuple [3, 2]) =
      .ok (.num (.dec 0)) ∧
    boundarySimilarityPair .ascending {} (exTuple [2, 3]) (exTuple [3, 2]) =
      .ok (.num (.dec (1 / 2))) := by
  refine ⟨⟨"widow_size".toList, by decide, by decide⟩, by decide +kernel,
    fun n hn => ?_, fun n hn => by simp at hn, by decide +kernel, by decide +kernel⟩
  have h : n = "n_t".toList := by simpa [given] using hn
  subst h
  decide

/-! ## Whole datasets -/

theorem pairwise_refused {R : Type} {o : ClassOrder Name} {f : Seg → Seg → Py R} {e : PyErr}
    (hf : ∀ a b, f a b = .error e) {items : Items} (hd : IsDict items) (hp : HasPair items)
    (permuted : Bool) : computePairwiseValues o f permuted items none = .error e := by
  obtain ⟨it, hit, h2⟩ := hp
  have hget : dictGet items it.1 = some it.2 := (mem_iff_dictGet hd.1).1 hit
  have hstep : ∀ (label : Name) (cm : Codings) (acc : List (Name × R)) (p : Name × Name),
      p ∈ combinations2 (dictKeys cm) →
      pairStep f label permuted false cm cm acc p = .error e := by
    intro label cm acc p hp
    have hm : p.1 ∈ dictKeys cm ∧ p.2 ∈ dictKeys cm := by
      clear h2 hget hit hd
      revert hp
      generalize dictKeys cm = l
      induction l with
      | nil => simp [combinations2]
      | cons x xs ih =>
        intro hp
        simp only [combinations2, List.mem_append, List.mem_map] at hp
        rcases hp with ⟨y, hy, rfl⟩ | hp
        · exact ⟨by simp, by simp [hy]⟩
        · exact ⟨List.mem_cons_of_mem _ (ih hp).1, List.mem_cons_of_mem _ (ih hp).2⟩
    obtain ⟨s, hs⟩ := mem_dictKeys.1 hm.1
    obtain ⟨t, ht⟩ := mem_dictKeys.1 hm.2
    simp only [pairStep, hs, ht, hf]
  have hlab : ∀ (label : Name) (cm : Codings), labelPairs f label permuted false cm cm
      (combinations2 (dictKeys cm)) = if combinations2 (dictKeys cm) = [] then .ok [] else .error e := by
    intro label cm
    unfold labelPairs
    have h0 := hstep label cm
    revert h0
    generalize combinations2 (dictKeys cm) = l
    intro h0
    cases l with
    | nil => simp [forLoop]
    | cons x xs => simp [forLoop, h0 _ x (by simp)]
  unfold computePairwiseValues
  refine forLoop_error _ _ e (fun acc l hl => ?_) it.1 ?_ (fun acc => ?_) []
  · rw [o.mem, mem_labelSet] at hl
    simp only [reduceCtorEq, false_and, exists_false, or_false] at hl
    obtain ⟨cm, hcm⟩ := mem_dictKeys.1 hl
    simp only [perLabel, hcm, hlab]
    split
    · rename_i h; split at h <;> simp_all
    · exact Or.inl ⟨_, rfl⟩
  · rw [o.mem, mem_labelSet]
    exact Or.inl (mem_dictKeys.2 ⟨_, hget⟩)
  · simp only [perLabel, hget, hlab]
    rw [if_neg]
    rcases hl : it.2 with _ | ⟨x, _ | ⟨y, rest⟩⟩
    · simp [hl] at h2
    · simp [hl] at h2
    · simp [dictKeys, combinations2]

/-- C123: on a dataset in which something is compared, a keyword that the metric does not have is
refused too. -/
theorem C123_dataset_unknown_refused (rt : Runtime) (o : ClassOrder Name) (k : Kwargs) (d : Dataset)
    (hb : k.datasetB = none) (hd : IsDict d.items) (hp : HasPair d.items) :
    (SomeUnknown similarityParameters k →
      metricOfDataset o (runB rt) similarityDefaults k d = .error .typeError ∧
      metricOfDataset o (runS rt) similarityDefaults k d = .error .typeError ∧
      metricOfDataset o (runConfusion rt) similarityDefaults k d = .error .typeError) ∧
    (SomeUnknown pkParameters k →
      metricOfDataset o runPk windowDefaults k d = .error .typeError) ∧
    (SomeUnknown windowDiffParameters k →
      metricOfDataset o runWindowDiff windowDiffDefaults k d = .error .typeError) := by
  have hne : d.items.isEmpty = false := by
    obtain ⟨it, hit, -⟩ := hp
    cases h : d.items with
    | nil => simp [h] at hit
    | cons x xs => rfl
  refine ⟨fun h => ?_, fun h => ?_, fun h => ?_⟩
  · have hbind : bindSimilarity { similarityDefaults.update { k with boundaryFormat := some d.boundaryFormat }
        with permuted := none } = .error .typeError := by
      rw [bindSimilarity_update]
      simp [show simTakes { k with boundaryFormat := some d.boundaryFormat } = false from
        (rfl : _ = simTakes k).trans (not_simTakes h)]
    rw [update_similarity] at hbind
    simp only [hb, Option.getD_some] at hbind
    refine ⟨?_, ?_, ?_⟩ <;>
    · unfold metricOfDataset
      rw [update_similarity]
      simp only [hne, Bool.false_eq_true, if_false, Kwargs.delPermuted, Option.isSome_some, if_true, hb]
      split
      · rfl
      · refine pairwise_refused (fun a b => ?_) hd hp _
        simp only [runB, runS, runConfusion, hbind]
  · have hbind : bindPk { windowDefaults.update { k with boundaryFormat := some d.boundaryFormat }
        with permuted := none } = .error .typeError := by
      rw [bindPk_update]
      simp [show pkTakes { k with boundaryFormat := some d.boundaryFormat } = false from
        (rfl : _ = pkTakes k).trans (not_pkTakes h)]
    rw [update_window] at hbind
    simp only [hb, Option.getD_some] at hbind
    unfold metricOfDataset
    rw [update_window]
    simp only [hne, Bool.false_eq_true, if_false, Kwargs.delPermuted, Option.isSome_some, if_true, hb]
    split
    · rfl
    · refine pairwise_refused (fun a b => ?_) hd hp _
      simp only [runPk, hbind]
  · have hbind : bindWindowDiff { windowDiffDefaults.update
        { k with boundaryFormat := some d.boundaryFormat } with permuted := none } =
        .error .typeError := by
      rw [bindWindowDiff_update]
      simp [show wdTakes { k with boundaryFormat := some d.boundaryFormat } = false from
        (rfl : _ = wdTakes k).trans (not_wdTakes h)]
    rw [update_windowDiff] at hbind
    simp only [hb, Option.getD_some] at hbind
    unfold metricOfDataset
    rw [update_windowDiff]
    simp only [hne, Bool.false_eq_true, if_false, Kwargs.delPermuted, Option.isSome_some, if_true, hb]
    split
    · rfl
    · refine pairwise_refused (fun a b => ?_) hd hp _
      simp only [runWindowDiff, hbind]

/-- C123: with keywords that the metric has, and possibly `dataset_b`, the call on a dataset
compares with the keywords given and the format of the dataset. -/
theorem C123_dataset_known_taken (rt : Runtime) (o : ClassOrder Name) (k : Kwargs) (d : Dataset)
    (hw : WrittenOnce k) (hne : d.items ≠ []) :
    (AllKnown (similarityParameters ++ ["dataset_b".toList]) k →
      metricOfDataset o (runB rt) similarityDefaults k d =
        computePairwiseValues o
          (boundarySimilarity rt { askedSimilarity k with boundaryFormat := d.boundaryFormat })
          (k.permuted.getD false) d.items k.datasetB ∧
      metricOfDataset o (runS rt) similarityDefaults k d =
        computePairwiseValues o
          (segmentationSimilarity rt { askedSimilarity k with boundaryFormat := d.boundaryFormat })
          (k.permuted.getD false) d.items k.datasetB ∧
      metricOfDataset o (runConfusion rt) similarityDefaults k d =
        computePairwiseValues o
          (boundaryConfusionMatrix rt { askedSimilarity k with boundaryFormat := d.boundaryFormat })
          (k.permuted.getD false) d.items k.datasetB) ∧
    (AllKnown (pkParameters ++ ["dataset_b".toList]) k →
      metricOfDataset o runPk windowDefaults k d =
        computePairwiseValues o
          (pk { askedWindow k with boundaryFormat := d.boundaryFormat, lamprierFix := false })
          (k.permuted.getD true) d.items k.datasetB) ∧
    (AllKnown (windowDiffParameters ++ ["dataset_b".toList]) k →
      metricOfDataset o runWindowDiff windowDiffDefaults k d =
        computePairwiseValues o
          (windowDiff { askedWindow k with boundaryFormat := d.boundaryFormat })
          (k.permuted.getD true) d.items k.datasetB) := by
  have hemp : d.items.isEmpty = false := by
    cases h : d.items with
    | nil => exact absurd h hne
    | cons x xs => rfl
  let k' : Kwargs := { k with boundaryFormat := some d.boundaryFormat, datasetB := none }
  have hw' : WrittenOnce k' := hw
  have hothers : ∀ (l : List Name), (∀ m ∈ l, m ∈ ownNames) → AllKnown l k → k.others = [] := by
    intro l hl h
    cases ho : k.others with
    | nil => rfl
    | cons x xs =>
      exact absurd (hl x (h x (mem_given.2 (by simp [ho])))) (hw x (by simp [ho]))
  have hknown : ∀ (l : List Name), "boundary_format".toList ∈ l →
      AllKnown (l ++ ["dataset_b".toList]) k → AllKnown l k' := by
    intro l hbf h n hn
    rw [mem_given] at hn
    have hcase : n = "boundary_format".toList ∨ (n ∈ given k ∧ n ≠ "dataset_b".toList) := by
      rcases hn with ⟨_, rfl⟩ | ⟨h1, rfl⟩ | ⟨h1, rfl⟩ | ⟨h1, rfl⟩ | ⟨h1, rfl⟩ | ⟨h1, rfl⟩ | ⟨h1, rfl⟩ |
        ⟨h1, rfl⟩ | ⟨h1, rfl⟩ | ⟨h1, rfl⟩ | ⟨h1, rfl⟩ | h1
      · exact Or.inl rfl
      · exact Or.inr ⟨mem_given.2 (by simp [show k.permuted.isSome = true from h1]), by decide⟩
      · exact Or.inr ⟨mem_given.2 (by simp [show k.oneMinus.isSome = true from h1]), by decide⟩
      · exact Or.inr ⟨mem_given.2 (by simp [show k.returnParts.isSome = true from h1]), by decide⟩
      · exact Or.inr ⟨mem_given.2 (by simp [show k.nT.isSome = true from h1]), by decide⟩
      · exact Or.inr ⟨mem_given.2 (by simp [show k.boundaryTypes.isSome = true from h1]), by decide⟩
      · exact Or.inr ⟨mem_given.2 (by simp [show k.weight.isSome = true from h1]), by decide⟩
      · exact Or.inr ⟨mem_given.2 (by simp [show k.windowSize.isSome = true from h1]), by decide⟩
      · exact Or.inr ⟨mem_given.2 (by simp [show k.fncRound.isSome = true from h1]), by decide⟩
      · exact Or.inr ⟨mem_given.2 (by simp [show k.lamprierFix.isSome = true from h1]), by decide⟩
      · exact absurd h1 Bool.false_ne_true
      · exact Or.inr ⟨mem_given.2 (by simp [show n ∈ k.others from h1]),
          fun e => hw n h1 (by rw [e]; decide)⟩
    rcases hcase with rfl | ⟨h1, h2⟩
    · exact hbf
    · have := h n h1
      rcases List.mem_append.1 this with h3 | h3
      · exact h3
      · exact absurd (by simpa using h3) h2
  refine ⟨fun h => ?_, fun h => ?_, fun h => ?_⟩
  · have ho := hothers _ (by decide) h
    have ht := simTakes_known hw' (hknown _ (by decide) h)
    have hbind := bindSimilarity_update k' none
    rw [if_pos ⟨rfl, ht⟩, update_similarity] at hbind
    simp only [k', Option.getD_some] at hbind
    refine ⟨?_, ?_, ?_⟩ <;>
    · unfold metricOfDataset
      rw [update_similarity]
      simp only [hemp, Bool.false_eq_true, if_false, Kwargs.delPermuted, Option.isSome_some, if_true, ho,
        List.contains_nil, Bool.or_self] at hbind ⊢
      congr 1
      funext a b
      simp only [runB, runS, runConfusion, hbind, askedSimilarity, Option.getD_some]
  · have ho := hothers _ (by decide) h
    have ht := pkTakes_known hw' (hknown _ (by decide) h)
    have hbind := bindPk_update k' none
    rw [if_pos ⟨rfl, ht⟩, update_window] at hbind
    simp only [k', Option.getD_some] at hbind
    unfold metricOfDataset
    rw [update_window]
    simp only [hemp, Bool.false_eq_true, if_false, Kwargs.delPermuted, Option.isSome_some, if_true, ho,
      List.contains_nil, Bool.or_self] at hbind ⊢
    congr 1
    funext a b
    simp only [runPk, hbind, askedWindow, Option.getD_some]
  · have ho := hothers _ (by decide) h
    have ht := wdTakes_known hw' (hknown _ (by decide) h)
    have hbind := bindWindowDiff_update k' none
    rw [if_pos ⟨rfl, ht⟩, update_windowDiff] at hbind
    simp only [k', Option.getD_some] at hbind
    unfold metricOfDataset
    rw [update_windowDiff]
    simp only [hemp, Bool.false_eq_true, if_false, Kwargs.delPermuted, Option.isSome_some, if_true, ho,
      List.contains_nil, Bool.or_self] at hbind ⊢
    congr 1
    funext a b
    simp only [runWindowDiff, hbind, askedWindow, Option.getD_some]

/-- Two items, one of which has two codings. -/
def exTwoItems : Dataset :=
  { items := [("i".toList, [("a".toList, exTuple [2, 3]), ("b".toList, exTuple [3, 2])]),
      ("j".toList, [("a".toList, exTuple [5])])]
    coders := {"a".toList, "b".toList}
    boundaryFormat := .mass }

/-- One item with one coding, to which positions belong. -/
def exOneCoding : Dataset :=
  { items := [("i".toList, [("a".toList, exTuple [1, 1, 2, 2, 2])])]
    coders := {"a".toList}
    boundaryFormat := .position }

example : IsDict exTwoItems.items ∧ HasPair exTwoItems.items ∧
    metricOfDataset ascN (runB .ascending) similarityDefaults { others := ["nt".toList] } exTwoItems =
      .error .typeError ∧
    metricOfDataset ascN (runB .ascending) similarityDefaults { nT := some 2 } exTwoItems =
      .ok [("i,a,b".toList, .num (.dec (1 / 2)))] := by
  refine ⟨by unfold IsDict; decide, ?_, by decide +kernel, by decide +kernel⟩
  exact ⟨_, List.mem_cons_self, by decide⟩

/-- C123, refuted on datasets in which nothing is compared: there a misspelt keyword goes unnoticed. -/
theorem C123_dataset_unnoticed_refuted :
    ∃ (k : Kwargs) (d : Dataset), SomeUnknown similarityParameters k ∧ IsDict d.items ∧ d.items ≠ [] ∧
      ∀ (rt : Runtime) (o : ClassOrder Name),
        metricOfDataset o (runB rt) similarityDefaults k d = .ok [] := by
  refine ⟨{ others := ["nt".toList] }, exOneCoding, ⟨"nt".toList, by decide, by decide⟩,
    by unfold IsDict; decide, by decide, fun rt o => ?_⟩
  have hord : o.order [] (labelSet exOneCoding.items none) = ["i".toList] := by
    have h1 := o.nodup [] (labelSet exOneCoding.items none)
    have h2 : ∀ x, x ∈ o.order [] (labelSet exOneCoding.items none) ↔ x = "i".toList := by
      intro x
      rw [o.mem, mem_labelSet]
      simp [exOneCoding, dictKeys]
    revert h1 h2
    generalize o.order [] (labelSet exOneCoding.items none) = l
    intro h1 h2
    rcases l with _ | ⟨x, _ | ⟨y, rest⟩⟩
    · exact absurd ((h2 _).2 rfl) (by simp)
    · rw [(h2 x).1 (by simp)]
    · exact absurd (((h2 x).1 (by simp)).trans ((h2 y).1 (by simp)).symm)
        (by intro e; rw [e] at h1; simp at h1)
  unfold metricOfDataset
  rw [update_similarity]
  simp only [computePairwiseValues]
  show (if _ then _ else if _ then _ else forLoop (o.order [] (labelSet exOneCoding.items none)) [] _) = _
  rw [hord]
  rfl

/-- C123: two datasets of different formats are refused as positional arguments, but not if the
second is the keyword `dataset_b` of `compute_pairwise_values`: its codings are read as if they had
the format of the first. -/
theorem C123_dataset_b_refuted :
    ∃ (d e : Dataset), d.boundaryFormat ≠ e.boundaryFormat ∧
      fncMetric ascN (fun fmt => boundarySimilarity .ascending { boundaryFormat := fmt }) .mass false
        { args := [.dataset d, .dataset e] } = .error .segmentationMetricError ∧
      metricOfDataset ascN (runB .ascending) similarityDefaults { datasetB := some e.items } d =
        .ok [("i,a,a".toList, .num (.dec 0))] :=
  ⟨{ items := [("i".toList, [("a".toList, exTuple [8])])]
     coders := {"a".toList}
     boundaryFormat := .mass }, exOneCoding, by decide, by decide +kernel, by decide +kernel⟩

/-! ## Agreement -/

/-- The format in force, and the other keywords that the comparison gets. -/
theorem agreementKwargs_eq (k : Kwargs) (data : AgrData) :
    ∃ t, agreementKwargs k data =
      { k with
        boundaryFormat := some (agrFormat (k.boundaryFormat.getD .mass) data)
        permuted := some (k.permuted.getD false), oneMinus := some (k.oneMinus.getD false)
        returnParts := some (k.returnParts.getD false), nT := some (k.nT.getD 2)
        boundaryTypes := some t, weight := some (k.weight.getD .default) } := by
  cases data <;>
    exact ⟨_, by simp [agreementKwargs, Kwargs.update, similarityDefaults, metricDefaults, agrFormat]; try rfl⟩

theorem boundarySimilarity_parts (rt : Runtime) (kw : SimKw) (om : Bool) (hr : kw.returnParts = true)
    (a b : Seg) : boundarySimilarity rt { kw with oneMinus := om } a b = boundarySimilarity rt kw a b := by
  simp only [boundarySimilarity, hr, if_true]

theorem segmentationSimilarity_parts (rt : Runtime) (kw : SimKw) (om : Bool)
    (hr : kw.returnParts = true) (a b : Seg) :
    segmentationSimilarity rt { kw with oneMinus := om } a b = segmentationSimilarity rt kw a b := by
  simp only [segmentationSimilarity, hr, if_true]

theorem simTakes_with (k : Kwargs) (bf : Option BoundaryFormat) (p om rp : Option Bool) (n : Option ℤ)
    (bt : Option (Option (Finset ℤ))) (w : Option Weights) :
    simTakes { k with
      boundaryFormat := bf, permuted := p, oneMinus := om, returnParts := rp, nT := n
      boundaryTypes := bt, weight := w } = simTakes k := rfl

/-- What the default comparison does with the keywords of the coefficient. -/
theorem comparisonMade_B (rt : Runtime) (k : Kwargs) (data : AgrData) (a b : Seg)
    (fmt : BoundaryFormat) :
    comparisonMade (boundarySimilarityPair rt) (agreementKwargs k data) fmt a b =
      if simTakes k then
        compareB rt (k.nT.getD 2) (k.weight.getD .default)
          (agrFormat (k.boundaryFormat.getD .mass) data) a b
      else if a.truthy && b.truthy then .error .typeError else .error .segmentationMetricError := by
  obtain ⟨t, ht⟩ := agreementKwargs_eq k data
  simp only [comparisonMade, ht, pairB_eq, compareB]
  cases h1 : simTakes k <;> cases h2 : a.truthy && b.truthy <;>
    simp only [simTakes_with, h1, if_true, if_false, Bool.false_eq_true]
  simp only [askedSimilarity, Option.getD_some]
  rw [← boundarySimilarity_parts rt ⟨agrFormat (k.boundaryFormat.getD .mass) data, false, true,
    k.nT.getD 2, k.weight.getD .default⟩ (k.oneMinus.getD false) rfl]
  cases boundarySimilarity rt _ a b with
  | error e => rfl
  | ok out => cases out <;> rfl

/-- What segmentation similarity does with the keywords of the coefficient. -/
theorem comparisonMade_S (rt : Runtime) (k : Kwargs) (data : AgrData) (a b : Seg)
    (fmt : BoundaryFormat) :
    comparisonMade (segmentationSimilarityPair rt) (agreementKwargs k data) fmt a b =
      if simTakes k then
        compareS rt (k.nT.getD 2) (k.weight.getD .default)
          (agrFormat (k.boundaryFormat.getD .mass) data) a b
      else if a.truthy && b.truthy then .error .typeError else .error .segmentationMetricError := by
  obtain ⟨t, ht⟩ := agreementKwargs_eq k data
  simp only [comparisonMade, ht, pairS_eq, compareS]
  cases h1 : simTakes k <;> cases h2 : a.truthy && b.truthy <;>
    simp only [simTakes_with, h1, if_true, if_false, Bool.false_eq_true]
  simp only [askedSimilarity, Option.getD_some]
  rw [← segmentationSimilarity_parts rt ⟨agrFormat (k.boundaryFormat.getD .mass) data, false, true,
    k.nT.getD 2, k.weight.getD .default⟩ (k.oneMinus.getD false) rfl]
  cases segmentationSimilarity rt _ a b with
  | error e => rfl
  | ok out => cases out <;> rfl

/-- The number that is returned. -/
def asValue : Py PyNum → Py ActualOut
  | .error e => .error e
  | .ok x => .ok (.value x)

theorem calls_congr {rt : Runtime} {k : AgrKwargs} {data : AgrData} {cmp : Compare}
    (h : ∀ a b, comparisonMade (k.comparison rt) (agreementKwargs k.kw data)
        (agrFormat (k.kw.boundaryFormat.getD .mass) data) a b =
      cmp (agrFormat (k.kw.boundaryFormat.getD .mass) data) a b) (o : ClassOrder Name) :
    (k.kw.returnParts.getD false = false → actualAgreementCall rt o k data =
      asValue (actualAgreement o cmp (k.kw.boundaryFormat.getD .mass) data)) ∧
    fleissPiCall rt o k data =
      fleissPi o cmp (k.kw.boundaryFormat.getD .mass) (k.kw.returnParts.getD false) data ∧
    fleissKappaCall rt o k data =
      fleissKappa o cmp (k.kw.boundaryFormat.getD .mass) (k.kw.returnParts.getD false) data ∧
    biasCall rt o k data =
      artsteinPoesioBias o cmp (k.kw.boundaryFormat.getD .mass) (k.kw.returnParts.getD false) data := by
  obtain ⟨t, ht⟩ := agreementKwargs_eq k.kw data
  have h1 : (agreementKwargs k.kw data).boundaryFormat =
      some (agrFormat (k.kw.boundaryFormat.getD .mass) data) := by rw [ht]
  have h2 : (agreementKwargs k.kw data).returnParts = some (k.kw.returnParts.getD false) := by rw [ht]
  refine ⟨fun hr => ?_, ?_, ?_, ?_⟩
  · simp only [actualAgreementCall, h1, h2, hr, agreementParts_congr h, actualAgreement]
    cases agreementParts cmp (agrFormat (k.kw.boundaryFormat.getD .mass) data)
      (o.order [] (getCoders data)) data.items with
    | error e => rfl
    | ok p =>
      simp only [Bool.false_eq_true, if_false]
      cases actualOfParts p <;> rfl
  · simp only [fleissPiCall, coefficientCall, h1, h2]
    exact fleissPi_congr h o _
  · simp only [fleissKappaCall, coefficientCall, h1, h2]
    exact fleissKappa_congr h o _
  · simp only [biasCall, coefficientCall, h1, h2]
    exact bias_congr h o _

/-- C123: with keywords that the similarities have, an agreement coefficient is the coefficient that
the other properties are about, with the comparison, `n_t`, weights and format given or their
defaults.  The missing part of the claim is refuted below: `one_minus`, `permuted` and
`boundary_types` do not occur on the right. -/
theorem C123_agreement_taken_partial (rt : Runtime) (o : ClassOrder Name) (k : Kwargs) (data : AgrData)
    (hw : WrittenOnce k) (hk : AllKnown similarityParameters k) :
    (k.returnParts.getD false = false →
      actualAgreementCall rt o ⟨k, none⟩ data = asValue (actualAgreement o
        (compareB rt (k.nT.getD 2) (k.weight.getD .default)) (k.boundaryFormat.getD .mass) data) ∧
      actualAgreementCall rt o ⟨k, some (segmentationSimilarityPair rt)⟩ data =
        asValue (actualAgreement o (compareS rt (k.nT.getD 2) (k.weight.getD .default))
          (k.boundaryFormat.getD .mass) data)) ∧
    fleissPiCall rt o ⟨k, none⟩ data = fleissPi o
      (compareB rt (k.nT.getD 2) (k.weight.getD .default)) (k.boundaryFormat.getD .mass)
      (k.returnParts.getD false) data ∧
    fleissPiCall rt o ⟨k, some (segmentationSimilarityPair rt)⟩ data = fleissPi o
      (compareS rt (k.nT.getD 2) (k.weight.getD .default)) (k.boundaryFormat.getD .mass)
      (k.returnParts.getD false) data ∧
    fleissKappaCall rt o ⟨k, none⟩ data = fleissKappa o
      (compareB rt (k.nT.getD 2) (k.weight.getD .default)) (k.boundaryFormat.getD .mass)
      (k.returnParts.getD false) data ∧
    fleissKappaCall rt o ⟨k, some (segmentationSimilarityPair rt)⟩ data = fleissKappa o
      (compareS rt (k.nT.getD 2) (k.weight.getD .default)) (k.boundaryFormat.getD .mass)
      (k.returnParts.getD false) data ∧
    biasCall rt o ⟨k, none⟩ data = artsteinPoesioBias o
      (compareB rt (k.nT.getD 2) (k.weight.getD .default)) (k.boundaryFormat.getD .mass)
      (k.returnParts.getD false) data ∧
    biasCall rt o ⟨k, some (segmentationSimilarityPair rt)⟩ data = artsteinPoesioBias o
      (compareS rt (k.nT.getD 2) (k.weight.getD .default)) (k.boundaryFormat.getD .mass)
      (k.returnParts.getD false) data := by
  have ht := simTakes_known hw hk
  have hB := calls_congr (rt := rt) (k := ⟨k, none⟩) (data := data)
    (cmp := compareB rt (k.nT.getD 2) (k.weight.getD .default))
    (fun a b => by
      simp only [AgrKwargs.comparison, Option.getD_none]
      rw [comparisonMade_B, if_pos ht]) o
  have hS := calls_congr (rt := rt) (k := ⟨k, some (segmentationSimilarityPair rt)⟩) (data := data)
    (cmp := compareS rt (k.nT.getD 2) (k.weight.getD .default))
    (fun a b => by
      simp only [AgrKwargs.comparison, Option.getD_some]
      rw [comparisonMade_S, if_pos ht]) o
  exact ⟨fun hr => ⟨hB.1 hr, hS.1 hr⟩, hB.2.1, hS.2.1, hB.2.2.1, hS.2.2.1, hB.2.2.2, hS.2.2.2⟩

/-- C123: the documented `one_minus` of the agreement coefficients ("Return 1-value") does nothing,
with either similarity, and neither do `permuted` and `boundary_types`. -/
theorem C123_agreement_ignored (rt : Runtime) (o : ClassOrder Name) (k : Kwargs) (data : AgrData)
    (om p : Option Bool) (bt : Option (Option (Finset ℤ))) (c : Option FncCompare)
    (hc : c = none ∨ c = some (boundarySimilarityPair rt) ∨ c = some (segmentationSimilarityPair rt)) :
    actualAgreementCall rt o ⟨{ k with oneMinus := om, permuted := p, boundaryTypes := bt }, c⟩ data =
      actualAgreementCall rt o ⟨k, c⟩ data ∧
    fleissPiCall rt o ⟨{ k with oneMinus := om, permuted := p, boundaryTypes := bt }, c⟩ data =
      fleissPiCall rt o ⟨k, c⟩ data ∧
    fleissKappaCall rt o ⟨{ k with oneMinus := om, permuted := p, boundaryTypes := bt }, c⟩ data =
      fleissKappaCall rt o ⟨k, c⟩ data ∧
    biasCall rt o ⟨{ k with oneMinus := om, permuted := p, boundaryTypes := bt }, c⟩ data =
      biasCall rt o ⟨k, c⟩ data := by
  have hcmp : comparisonMade ((⟨{ k with oneMinus := om, permuted := p, boundaryTypes := bt }, c⟩ :
      AgrKwargs).comparison rt)
      (agreementKwargs { k with oneMinus := om, permuted := p, boundaryTypes := bt } data) =
      comparisonMade ((⟨k, c⟩ : AgrKwargs).comparison rt) (agreementKwargs k data) := by
    funext fmt a b
    rcases hc with rfl | rfl | rfl <;>
      simp only [AgrKwargs.comparison, Option.getD_none, Option.getD_some, comparisonMade_B,
        comparisonMade_S] <;> rfl
  obtain ⟨t, ht⟩ := agreementKwargs_eq k data
  obtain ⟨t', ht'⟩ := agreementKwargs_eq { k with oneMinus := om, permuted := p, boundaryTypes := bt } data
  have e1 : (agreementKwargs { k with oneMinus := om, permuted := p, boundaryTypes := bt }
      data).boundaryFormat = (agreementKwargs k data).boundaryFormat := by rw [ht, ht']
  have e2 : (agreementKwargs { k with oneMinus := om, permuted := p, boundaryTypes := bt }
      data).returnParts = (agreementKwargs k data).returnParts := by rw [ht, ht']
  refine ⟨?_, ?_, ?_, ?_⟩
  · simp only [actualAgreementCall, hcmp, e1, e2]
  · simp only [fleissPiCall, coefficientCall, hcmp, e1, e2]
  · simp only [fleissKappaCall, coefficientCall, hcmp, e1, e2]
  · simp only [biasCall, coefficientCall, hcmp, e1, e2]

/-- The number in a result. -/
def ActualOut.number? : Py ActualOut → Option ℚ
  | .ok (.value x) => some x.val
  | _ => none

/-- C123, refuted for `one_minus` of agreement: data of agreement 5/8 with and without. -/
theorem C123_one_minus_refuted :
    ActualOut.number? (actualAgreementCall .ascending ascN {} exAgr) = some (5 / 8) ∧
    ActualOut.number? (actualAgreementCall .ascending ascN { kw := { oneMinus := some true } } exAgr) =
      some (5 / 8) ∧ (5 / 8 : ℚ) ≠ 1 - 5 / 8 := by
  refine ⟨by decide +kernel, by decide +kernel, by norm_num⟩

theorem noNumber {rt : Runtime} {k : AgrKwargs} {data : AgrData}
    (h : ∀ fmt a b, ∃ e, comparisonMade (k.comparison rt) (agreementKwargs k.kw data) fmt a b = .error e)
    (o : ClassOrder Name) :
    (∀ x, actualAgreementCall rt o k data ≠ .ok (.value x)) ∧
    (∀ out, fleissPiCall rt o k data ≠ .ok out ∧ fleissKappaCall rt o k data ≠ .ok out ∧
      biasCall rt o k data ≠ .ok out) := by
  obtain ⟨t, ht⟩ := agreementKwargs_eq k.kw data
  have h1 : (agreementKwargs k.kw data).boundaryFormat =
      some (agrFormat (k.kw.boundaryFormat.getD .mass) data) := by rw [ht]
  have h2 : (agreementKwargs k.kw data).returnParts = some (k.kw.returnParts.getD false) := by rw [ht]
  refine ⟨fun x hx => ?_, fun out => ?_⟩
  · simp only [actualAgreementCall, h1, h2] at hx
    cases hp : agreementParts (comparisonMade (k.comparison rt) (agreementKwargs k.kw data))
        (agrFormat (k.kw.boundaryFormat.getD .mass) data) (o.order [] (getCoders data)) data.items with
    | error e => simp [hp] at hx
    | ok q =>
      rw [hp, agreementParts_fails h hp] at hx
      simp only [show actualOfParts {} = .error .zeroDivisionError by decide +kernel] at hx
      split at hx <;> simp at hx
  · simp only [fleissPiCall, fleissKappaCall, biasCall, coefficientCall, h1, h2]
    exact coefficients_fail h o _ _ data out

/-- C123, refuted for `fnc_compare`: Pk and WindowDiff, which the documentation allows as
"segmentation comparison metric function", get the keywords of the similarities and refuse them.
Whatever the data and the keywords, no coefficient is a number. -/
theorem C123_window_compare_refuted (rt : Runtime) (o : ClassOrder Name) (k : Kwargs) (data : AgrData)
    (c : FncCompare) (hc : c = pkPair ∨ c = windowDiffPair) :
    (∀ x, actualAgreementCall rt o ⟨k, some c⟩ data ≠ .ok (.value x)) ∧
    (∀ out, fleissPiCall rt o ⟨k, some c⟩ data ≠ .ok out ∧
      fleissKappaCall rt o ⟨k, some c⟩ data ≠ .ok out ∧ biasCall rt o ⟨k, some c⟩ data ≠ .ok out) := by
  refine noNumber (fun fmt a b => ?_) o
  obtain ⟨t, ht⟩ := agreementKwargs_eq k data
  rcases hc with rfl | rfl <;>
    simp only [AgrKwargs.comparison, Option.getD_some, comparisonMade, ht, pairPk_eq, pairWindowDiff_eq,
      pkTakes, wdTakes, Option.isSome_some, Bool.true_or, Bool.not_true, Bool.false_eq_true, if_false] <;>
    cases a.truthy && b.truthy <;> exact ⟨_, rfl⟩

/-- C123: no agreement coefficient with a keyword that the similarities do not have, say because it
is misspelt, is a number. -/
theorem C123_agreement_unknown_refused (rt : Runtime) (o : ClassOrder Name) (k : Kwargs) (data : AgrData)
    (hk : SomeUnknown similarityParameters k) (c : Option FncCompare)
    (hc : c = none ∨ c = some (boundarySimilarityPair rt) ∨ c = some (segmentationSimilarityPair rt)) :
    (∀ x, actualAgreementCall rt o ⟨k, c⟩ data ≠ .ok (.value x)) ∧
    (∀ out, fleissPiCall rt o ⟨k, c⟩ data ≠ .ok out ∧
      fleissKappaCall rt o ⟨k, c⟩ data ≠ .ok out ∧ biasCall rt o ⟨k, c⟩ data ≠ .ok out) := by
  refine noNumber (fun fmt a b => ?_) o
  rcases hc with rfl | rfl | rfl <;>
    simp only [AgrKwargs.comparison, Option.getD_none, Option.getD_some, comparisonMade_B,
      comparisonMade_S, not_simTakes hk, Bool.false_eq_true, if_false] <;>
    cases a.truthy && b.truthy <;> exact ⟨_, rfl⟩

/-- Does the call raise a `TypeError`? -/
def raisesTypeError {α : Type} : Py α → Bool
  | .error e => decide (e = .typeError)
  | .ok _ => false

example : raisesTypeError (actualAgreementCall .ascending ascN ⟨{}, some pkPair⟩ exAgr) = true ∧
    raisesTypeError (fleissPiCall .ascending ascN ⟨{}, some windowDiffPair⟩ exAgr) = true ∧
    raisesTypeError (fleissKappaCall .ascending ascN ⟨{ others := ["nt".toList] }, none⟩ exAgr) = true ∧
    ActualOut.number? (actualAgreementCall .ascending ascN
      ⟨{ nT := some 1 }, some (segmentationSimilarityPair .ascending)⟩ exAgr) =
      (match actualAgreement ascN (compareS .ascending 1 .default) .mass exAgr with
        | .ok x => some x.val
        | .error _ => none) := by
  refine ⟨by decide +kernel, by decide +kernel, by decide +kernel, by decide +kernel⟩

end SegEval.Props
