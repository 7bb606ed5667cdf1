import Verif.Model.DatasetPair
import Verif.Props.Keywords

/-!
# Properties of metrics of two datasets (C123, C125)
-/

namespace SegEval.Props

open SegEval SegEval.Spec

/-- Some item has codings in both datasets. -/
def SharePair (a b : Items) : Prop :=
  ∃ label cm cn, (label, cm) ∈ a ∧ (label, cn) ∈ b ∧ cm ≠ [] ∧ cn ≠ []

theorem pairwise_two_refused {R : Type} {o : ClassOrder Name} {f : Seg → Seg → Py R} {e : PyErr}
    (hf : ∀ a b, f a b = .error e) {a b : Items} (ha : (a.map Prod.fst).Nodup)
    (hb : (b.map Prod.fst).Nodup) (hp : SharePair a b) (permuted : Bool) :
    computePairwiseValues o f permuted a (some b) = .error e := by
  obtain ⟨label, cm, cn, hm, hn, hm0, hn0⟩ := hp
  have hgm : dictGet a label = some cm := (mem_iff_dictGet ha).1 hm
  have hgn : dictGet b label = some cn := (mem_iff_dictGet hb).1 hn
  have hlab : ∀ (l : Name) (x y : Codings) (ps : List (Name × Name)),
      (∀ p ∈ ps, p.1 ∈ dictKeys x ∧ p.2 ∈ dictKeys y) →
      labelPairs f l permuted true x y ps = if ps = [] then .ok [] else .error e := by
    intro l x y ps hps
    unfold labelPairs
    cases ps with
    | nil => simp [forLoop]
    | cons p rest =>
      obtain ⟨s, hs⟩ := mem_dictKeys.1 (hps p (by simp)).1
      obtain ⟨t, ht⟩ := mem_dictKeys.1 (hps p (by simp)).2
      simp [forLoop, pairStep, hs, ht, hf]
  have hkeys : ∀ (x y : Codings), ∀ p ∈ (dictKeys x).flatMap (fun m => (dictKeys y).map (fun n => (m, n))),
      p.1 ∈ dictKeys x ∧ p.2 ∈ dictKeys y := by
    intro x y p hp
    simp only [List.mem_flatMap, List.mem_map] at hp
    obtain ⟨m, hm, n, hn, rfl⟩ := hp
    exact ⟨hm, hn⟩
  unfold computePairwiseValues
  refine forLoop_error _ _ e (fun acc l hl => ?_) label ?_ (fun acc => ?_) []
  · simp only [perLabel]
    cases h1 : dictGet a l with
    | none => exact Or.inl ⟨_, rfl⟩
    | some x =>
      cases h2 : dictGet b l with
      | none => exact Or.inl ⟨_, rfl⟩
      | some y =>
        simp only [hlab l x y _ (hkeys x y)]
        split
        · rename_i h; split at h <;> simp_all
        · exact Or.inl ⟨_, rfl⟩
  · rw [o.mem, mem_labelSet]
    exact Or.inl (mem_dictKeys.2 ⟨_, hgm⟩)
  · simp only [perLabel, hgm, hgn, hlab label cm cn _ (hkeys cm cn)]
    rw [if_neg]
    rcases cm with _ | ⟨x, xs⟩
    · exact absurd rfl hm0
    · rcases cn with _ | ⟨y, ys⟩
      · exact absurd rfl hn0
      · simp [dictKeys]

/-- C123: on two datasets in which something is compared, a keyword that the metric does not have is
refused. -/
theorem C123_datasets_unknown_refused (rt : Runtime) (o : ClassOrder Name) (k : Kwargs)
    (h r : DatasetRef) (hfmt : h.format.is r.format = true) (hh : (h.items.map Prod.fst).Nodup)
    (hr : (r.items.map Prod.fst).Nodup) (hp : SharePair h.items r.items) :
    (SomeUnknown similarityParameters k →
      metricOfDatasets o (runB rt) similarityDefaults k h r = .error .typeError ∧
      metricOfDatasets o (runS rt) similarityDefaults k h r = .error .typeError ∧
      metricOfDatasets o (runConfusion rt) similarityDefaults k h r = .error .typeError) ∧
    (SomeUnknown pkParameters k →
      metricOfDatasets o runPk windowDefaults k h r = .error .typeError) ∧
    (SomeUnknown windowDiffParameters k →
      metricOfDatasets o runWindowDiff windowDiffDefaults k h r = .error .typeError) := by
  have hne : (h.items.isEmpty || r.items.isEmpty) = false := by
    obtain ⟨l, cm, cn, hm, hn, -⟩ := hp
    cases h1 : h.items with
    | nil => simp [h1] at hm
    | cons x xs =>
      cases h2 : r.items with
      | nil => simp [h2] at hn
      | cons y ys => rfl
  refine ⟨fun hu => ?_, fun hu => ?_, fun hu => ?_⟩
  · have hbind := bindSimilarity_update { k with boundaryFormat := some h.format.fmt } none
    rw [if_neg (by
      rw [show simTakes { k with boundaryFormat := some h.format.fmt } = simTakes k from rfl,
        not_simTakes hu]; simp), update_similarity] at hbind
    simp only [Option.getD_some] at hbind
    refine ⟨?_, ?_, ?_⟩ <;>
    · unfold metricOfDatasets
      rw [update_similarity]
      simp only [hne, hfmt, Bool.not_true, Bool.false_eq_true, if_false, Kwargs.delPermuted,
        Option.isSome_some, if_true]
      split
      · rfl
      · refine pairwise_two_refused (fun a b => ?_) hh hr hp _
        simp only [runB, runS, runConfusion, hbind]
  · have hbind := bindPk_update { k with boundaryFormat := some h.format.fmt } none
    rw [if_neg (by
      rw [show pkTakes { k with boundaryFormat := some h.format.fmt } = pkTakes k from rfl,
        not_pkTakes hu]; simp), update_window] at hbind
    simp only [Option.getD_some] at hbind
    unfold metricOfDatasets
    rw [update_window]
    simp only [hne, hfmt, Bool.not_true, Bool.false_eq_true, if_false, Kwargs.delPermuted,
      Option.isSome_some, if_true]
    split
    · rfl
    · refine pairwise_two_refused (fun a b => ?_) hh hr hp _
      simp only [runPk, hbind]
  · have hbind := bindWindowDiff_update { k with boundaryFormat := some h.format.fmt } none
    rw [if_neg (by
      rw [show wdTakes { k with boundaryFormat := some h.format.fmt } = wdTakes k from rfl,
        not_wdTakes hu]; simp), update_windowDiff] at hbind
    simp only [Option.getD_some] at hbind
    unfold metricOfDatasets
    rw [update_windowDiff]
    simp only [hne, hfmt, Bool.not_true, Bool.false_eq_true, if_false, Kwargs.delPermuted,
      Option.isSome_some, if_true]
    split
    · rfl
    · refine pairwise_two_refused (fun a b => ?_) hh hr hp _
      simp only [runWindowDiff, hbind]

/-- C123: with keywords that the metric has, two datasets are compared with the keywords given and
the format of the first. -/
theorem C123_datasets_known_taken (rt : Runtime) (o : ClassOrder Name) (k : Kwargs) (h r : DatasetRef)
    (hw : WrittenOnce k) (hfmt : h.format.is r.format = true) (hh : h.items ≠ []) (hr : r.items ≠ []) :
    (AllKnown similarityParameters k →
      metricOfDatasets o (runB rt) similarityDefaults k h r =
        computePairwiseValues o
          (boundarySimilarity rt { askedSimilarity k with boundaryFormat := h.format.fmt })
          (k.permuted.getD false) h.items (some r.items) ∧
      metricOfDatasets o (runS rt) similarityDefaults k h r =
        computePairwiseValues o
          (segmentationSimilarity rt { askedSimilarity k with boundaryFormat := h.format.fmt })
          (k.permuted.getD false) h.items (some r.items) ∧
      metricOfDatasets o (runConfusion rt) similarityDefaults k h r =
        computePairwiseValues o
          (boundaryConfusionMatrix rt { askedSimilarity k with boundaryFormat := h.format.fmt })
          (k.permuted.getD false) h.items (some r.items)) ∧
    (AllKnown pkParameters k →
      metricOfDatasets o runPk windowDefaults k h r =
        computePairwiseValues o
          (pk { askedWindow k with boundaryFormat := h.format.fmt, lamprierFix := false })
          (k.permuted.getD true) h.items (some r.items)) ∧
    (AllKnown windowDiffParameters k →
      metricOfDatasets o runWindowDiff windowDiffDefaults k h r =
        computePairwiseValues o
          (windowDiff { askedWindow k with boundaryFormat := h.format.fmt })
          (k.permuted.getD true) h.items (some r.items)) := by
  have hne : (h.items.isEmpty || r.items.isEmpty) = false := by
    cases h1 : h.items with
    | nil => exact absurd h1 hh
    | cons x xs =>
      cases h2 : r.items with
      | nil => exact absurd h2 hr
      | cons y ys => rfl
  have hothers : ∀ (l : List Name), (∀ m ∈ l, m ∈ ownNames) → AllKnown l k → k.others = [] := by
    intro l hl hk
    cases ho : k.others with
    | nil => rfl
    | cons x xs =>
      exact absurd (hl x (hk x (mem_given.2 (by simp [ho])))) (hw x (by simp [ho]))
  have hb : ∀ (l : List Name), "dataset_b".toList ∉ l → AllKnown l k → k.datasetB.isSome = false := by
    intro l hl hk
    cases hc : k.datasetB.isSome with
    | false => rfl
    | true => exact absurd (hk "dataset_b".toList (mem_given.2 (by simp [hc]))) hl
  refine ⟨fun hk => ?_, fun hk => ?_, fun hk => ?_⟩
  · have ho := hothers _ (by decide) hk
    have hd := hb _ (by decide) hk
    have hbind := bindSimilarity_update { k with boundaryFormat := some h.format.fmt } none
    rw [if_pos ⟨rfl, show simTakes k = true from simTakes_known hw hk⟩, update_similarity] at hbind
    simp only [Option.getD_some] at hbind
    refine ⟨?_, ?_, ?_⟩ <;>
    · unfold metricOfDatasets
      rw [update_similarity]
      simp only [hne, hfmt, hd, Bool.not_true, Bool.false_eq_true, if_false, Kwargs.delPermuted,
        Option.isSome_some, if_true, ho, List.contains_nil, Bool.or_self] at hbind ⊢
      congr 1
      funext a b
      simp only [runB, runS, runConfusion, hbind, askedSimilarity, Option.getD_some]
  · have ho := hothers _ (by decide) hk
    have hd := hb _ (by decide) hk
    have hbind := bindPk_update { k with boundaryFormat := some h.format.fmt } none
    rw [if_pos ⟨rfl, show pkTakes k = true from pkTakes_known hw hk⟩, update_window] at hbind
    simp only [Option.getD_some] at hbind
    unfold metricOfDatasets
    rw [update_window]
    simp only [hne, hfmt, hd, Bool.not_true, Bool.false_eq_true, if_false, Kwargs.delPermuted,
      Option.isSome_some, if_true, ho, List.contains_nil, Bool.or_self] at hbind ⊢
    congr 1
    funext a b
    simp only [runPk, hbind, askedWindow, Option.getD_some]
  · have ho := hothers _ (by decide) hk
    have hd := hb _ (by decide) hk
    have hbind := bindWindowDiff_update { k with boundaryFormat := some h.format.fmt } none
    rw [if_pos ⟨rfl, show wdTakes k = true from wdTakes_known hw hk⟩, update_windowDiff] at hbind
    simp only [Option.getD_some] at hbind
    unfold metricOfDatasets
    rw [update_windowDiff]
    simp only [hne, hfmt, hd, Bool.not_true, Bool.false_eq_true, if_false, Kwargs.delPermuted,
      Option.isSome_some, if_true, ho, List.contains_nil, Bool.or_self] at hbind ⊢
    congr 1
    funext a b
    simp only [runWindowDiff, hbind, askedWindow, Option.getD_some]

/-- C125: two datasets of different formats are refused before anything is compared, whatever the
metric, the keywords and the data. -/
theorem C125_different_refused {R : Type} (o : ClassOrder Name) (run : Kwargs → Seg → Seg → Py R)
    (defaults k : Kwargs) (h r : DatasetRef)
    (hne : h.format.fmt ≠ r.format.fmt) :
    metricOfDatasets o run defaults k h r = .error .segmentationMetricError := by
  unfold metricOfDatasets
  split
  · rfl
  · simp [FmtRef.is, hne]

/-- C125: two datasets of one format that is the same object can be compared: the result is that of
the calls of the other properties (C42, C44). -/
theorem C125_same_object_partial (rt : Runtime) (o : ClassOrder Name) (k : Kwargs) (h r : DatasetRef)
    (hw : WrittenOnce k) (hk : AllKnown similarityParameters k)
    (hf : h.format.fmt = r.format.fmt) (ht : h.format.tag = r.format.tag)
    (hh : h.items ≠ []) (hr : r.items ≠ []) (fmt : BoundaryFormat) :
    (metricOfDatasets o (runB rt) similarityDefaults k h r).map CallOut.pairs =
      fncMetric o (fun fmt => boundarySimilarity rt { askedSimilarity k with boundaryFormat := fmt }) fmt
        (k.permuted.getD false) { args := [.dataset h.plain, .dataset r.plain] } := by
  have hfmt : h.format.is r.format = true := by simp [FmtRef.is, hf, ht]
  rw [((C123_datasets_known_taken rt o k h r hw hfmt hh hr).1 hk).1]
  have h1 : h.items.isEmpty = false := by
    cases h1 : h.items with
    | nil => exact absurd h1 hh
    | cons x xs => rfl
  have h2 : r.items.isEmpty = false := by
    cases h2 : r.items with
    | nil => exact absurd h2 hr
    | cons x xs => rfl
  have hx : ∀ (g : BoundaryFormat → Seg → Seg → Py MetricOut) (f : BoundaryFormat),
      rejectExtra false g f = g f := by
    intro g f; funext a b; simp [rejectExtra]
  simp only [fncMetric, parseArgs, ArgVal.wrapInt, ArgVal.truthy, DatasetRef.plain, h1, h2, hf,
    Option.isSome_none, Bool.or_self, Bool.false_eq_true, if_false, Bool.not_false, Bool.and_self, if_true, ne_eq,
    not_true_eq_false, hx]
  cases computePairwiseValues o _ _ h.items (some r.items) <;> rfl

/-- C125, refuted: whatever the metric, the keywords and the data, two datasets of the same format are
refused as of different formats if the format of one was made at run time. -/
theorem C125_refuted {R : Type} (o : ClassOrder Name) (run : Kwargs → Seg → Seg → Py R)
    (defaults k : Kwargs) (fmt : BoundaryFormat) (t u : ℕ) (htu : t ≠ u) (a b : Items)
    (ca cb : Finset Name) :
    metricOfDatasets o run defaults k ⟨a, ca, ⟨fmt, t⟩⟩ ⟨b, cb, ⟨fmt, u⟩⟩ =
      .error .segmentationMetricError := by
  unfold metricOfDatasets
  split
  · rfl
  · simp [FmtRef.is, htu]

/-- One item with the codings of two coders, and a format object. -/
def exRef (t : ℕ) : DatasetRef :=
  ⟨[("i".toList, [("a".toList, exTuple [2, 3]), ("b".toList, exTuple [3, 2])])],
    {"a".toList, "b".toList}, ⟨.mass, t⟩⟩

example : SharePair (exRef 0).items (exRef 0).items ∧
    metricOfDatasets ascN (runB .ascending) similarityDefaults {} (exRef 0) (exRef 0) =
      .ok [("i,a,a".toList, .num (.dec 1)), ("i,a,b".toList, .num (.dec (1 / 2))),
        ("i,b,a".toList, .num (.dec (1 / 2))), ("i,b,b".toList, .num (.dec 1))] ∧
    metricOfDatasets ascN (runB .ascending) similarityDefaults {} (exRef 0) (exRef 1) =
      .error .segmentationMetricError ∧
    metricOfDatasets ascN (runB .ascending) similarityDefaults { others := ["nt".toList] } (exRef 0)
      (exRef 0) = .error .typeError := by
  refine ⟨⟨_, _, _, List.mem_cons_self, List.mem_cons_self, by decide, by decide⟩, by decide +kernel,
    by decide +kernel, by decide +kernel⟩

end SegEval.Props
