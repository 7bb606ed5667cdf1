import Verif.Lemmas.Rearranged
import Verif.Props.Pipeline

/-!
# C90: the order of items and codings
-/

namespace SegEval.Props

open SegEval Spec

section
variable {R : Type} (o o' : ClassOrder Name) {f f' : Seg → Seg → Py R} {a b : Items}

theorem vals_agree (hf : ∀ label m n sm sn v, m ≠ n → Coded a label m sm → Coded a label n sn →
      (f sm sn = .ok v ↔ f' sm sn = .ok v)) {l m n : Name} (hne : m ≠ n) :
    tripleVal f a (l, m, n) = tripleVal f' a (l, m, n) := by
  apply Option.ext
  intro v
  rw [tripleVal_some, tripleVal_some]
  constructor
  · rintro ⟨sm, sn, h1, h2, h3⟩; exact ⟨sm, sn, h1, h2, (hf _ _ _ _ _ _ hne h1 h2).1 h3⟩
  · rintro ⟨sm, sn, h1, h2, h3⟩; exact ⟨sm, sn, h1, h2, (hf _ _ _ _ _ _ hne h1 h2).2 h3⟩

theorem triples_ne {permuted : Bool} (hd : IsDict a) {l m n : Name} (h : (l, m, n) ∈ triples permuted a) :
    m ≠ n := by
  rw [mem_triples permuted a hd] at h
  exact ((before_or_iff hd l m n).1 (h.imp_right And.right)).1

theorem some_pairs_inj {out out' : List (Name × R)}
    (h : (out.map (fun e => (e.1, some e.2))).Perm (out'.map (fun e => (e.1, some e.2)))) :
    out.Perm out' := by
  have := h.filterMap (fun e : Name × Option R => e.2.map (fun v => (e.1, v)))
  simpa [List.filterMap_map, Function.comp_def] using this

theorem some_inj_perm {l l' : List R} (h : (l.map some).Perm (l'.map some)) : l.Perm l' := by
  have := h.filterMap (fun e : Option R => e)
  simpa [List.filterMap_map, Function.comp_def] using this

/-- C90: a permuted comparison does not depend on the order of items and codings: it returns for both or
neither, and the same values under the same keys. -/
theorem C90_permuted (hd : IsDict a) (hc : NoCommas a) (h : Rearranged a b)
    (hf : ∀ label m n sm sn v, m ≠ n → Coded a label m sm → Coded a label n sn →
      (f sm sn = .ok v ↔ f' sm sn = .ok v)) :
    ((∃ out, computePairwiseValues o f true a none = .ok out) ↔
      ∃ out, computePairwiseValues o' f' true b none = .ok out) ∧
    ∀ out out', computePairwiseValues o f true a none = .ok out →
      computePairwiseValues o' f' true b none = .ok out' → out.Perm out' := by
  have hd' := rearranged_dict h hd
  have ht := rearranged_triples h hd
  have hval : ∀ t ∈ triples true a, tripleVal f' b t = tripleVal f a t := by
    rintro ⟨l, m, n⟩ ht
    rw [rearranged_val h hd, vals_agree hf (triples_ne hd ht)]
  constructor
  · rw [pairwise_defined o f true hd, pairwise_defined o' f' true hd']
    constructor
    · intro h1 t h2
      rw [hval t (ht.mem_iff.2 h2)]
      exact h1 t (ht.mem_iff.2 h2)
    · intro h1 t h2
      rw [← hval t h2]
      exact h1 t (ht.mem_iff.1 h2)
  · intro out out' h1 h2
    have p1 := pairwise_perm o f true hd hc h1
    have p2 := pairwise_perm o' f' true hd' (rearranged_commas h hd hc) h2
    apply some_pairs_inj
    refine p1.trans (List.Perm.trans ?_ p2.symm)
    refine List.Perm.trans ?_ (ht.map _)
    exact .of_eq (List.map_congr_left (fun t ht => by rw [hval t ht]))

/-- C90: for a symmetric metric, the values of a comparison do not depend on the order of items and
codings (but their keys do, see `C90_keys`). -/
theorem C90_symmetric (hd : IsDict a) (hc : NoCommas a) (h : Rearranged a b)
    (hf : ∀ label m n sm sn v, m ≠ n → Coded a label m sm → Coded a label n sn →
      (f sm sn = .ok v ↔ f' sm sn = .ok v))
    (hs : ∀ label m n sm sn v, m ≠ n → Coded a label m sm → Coded a label n sn →
      (f sm sn = .ok v ↔ f sn sm = .ok v)) :
    ((∃ out, computePairwiseValues o f false a none = .ok out) ↔
      ∃ out, computePairwiseValues o' f' false b none = .ok out) ∧
    ∀ out out', computePairwiseValues o f false a none = .ok out →
      computePairwiseValues o' f' false b none = .ok out' →
        (out.map Prod.snd).Perm (out'.map Prod.snd) := by
  have hd' := rearranged_dict h hd
  have hsym : ∀ l m n, tripleVal f a (l, m, n) = tripleVal f a (l, n, m) := by
    intro l m n
    by_cases hne : m = n
    · rw [hne]
    · apply Option.ext
      intro v
      rw [tripleVal_some, tripleVal_some]
      constructor
      · rintro ⟨sm, sn, h1, h2, h3⟩
        exact ⟨sn, sm, h2, h1, (hs _ _ _ _ _ _ hne h1 h2).1 h3⟩
      · rintro ⟨sn, sm, h1, h2, h3⟩
        exact ⟨sm, sn, h2, h1, (hs _ _ _ _ _ _ hne h2 h1).2 h3⟩
  have hp := rearranged_symmetric h hd (tripleVal f a) (fun l m n _ _ => hsym l m n)
  have hval : ∀ t ∈ triples false b, tripleVal f' b t = tripleVal f a t := by
    rintro ⟨l, m, n⟩ ht
    rw [rearranged_val h hd, vals_agree hf (triples_ne hd' ht)]
  have hmap : (triples false b).map (tripleVal f' b) = (triples false b).map (tripleVal f a) :=
    List.map_congr_left hval
  constructor
  · rw [pairwise_defined o f false hd, pairwise_defined o' f' false hd']
    have e : ∀ (g : Seg → Seg → Py R) (x : Items), (∀ t ∈ triples false x, (tripleVal g x t).isSome) ↔
        ∀ y ∈ (triples false x).map (tripleVal g x), y.isSome := by
      intro g x
      constructor
      · intro h y hy
        obtain ⟨t, ht, rfl⟩ := List.mem_map.1 hy
        exact h t ht
      · intro h t ht
        exact h _ (List.mem_map.2 ⟨t, ht, rfl⟩)
    rw [e, e, hmap]
    constructor
    · intro h1 y hy; exact h1 y (hp.mem_iff.2 hy)
    · intro h1 y hy; exact h1 y (hp.mem_iff.1 hy)
  · intro out out' h1 h2
    have p1 := (pairwise_perm o f false hd hc h1).map Prod.snd
    have p2 := (pairwise_perm o' f' false hd' (rearranged_commas h hd hc) h2).map Prod.snd
    apply some_inj_perm
    rw [List.map_map, List.map_map] at p1 p2 ⊢
    refine List.Perm.trans p1 (List.Perm.trans ?_ p2.symm)
    change ((triples false a).map (tripleVal f a)).Perm ((triples false b).map (tripleVal f' b))
    rw [hmap]
    exact hp

/-- C90: the comparison of two datasets does not depend on the order of items and codings. -/
theorem C90_two {a' b' : Items} (permuted permuted' : Bool) (hd : IsDict a) (hc : NoCommas a)
    (hd' : IsDict a') (hc' : NoCommas a') (h : Rearranged a b) (h' : Rearranged a' b')
    (hf : ∀ label m n sm sn v, Coded a label m sm → Coded a' label n sn →
      (f sm sn = .ok v ↔ f' sm sn = .ok v)) :
    ((∃ out, computePairwiseValues o f permuted a (some a') = .ok out) ↔
      ∃ out, computePairwiseValues o' f' permuted' b (some b') = .ok out) ∧
    ∀ out out', computePairwiseValues o f permuted a (some a') = .ok out →
      computePairwiseValues o' f' permuted' b (some b') = .ok out' → out.Perm out' := by
  have hdef : ∀ (o : ClassOrder Name) (f : Seg → Seg → Py R) (permuted : Bool) (x y : Items),
      (∃ out, computePairwiseValues o f permuted x (some y) = .ok out) ↔
      ∀ l m n sm sn, Coded x l m sm → Coded y l n sn → ∃ v, f sm sn = .ok v := by
    intro o f permuted x y
    constructor
    · rintro ⟨out, h⟩ l m n sm sn h1 h2
      exact pairwise_two_ok o f permuted x y h h1 h2
    · intro h
      cases hx : computePairwiseValues o f permuted x (some y) with
      | ok out => exact ⟨out, rfl⟩
      | error e =>
        obtain ⟨l, m, n, sm, sn, h1, h2, h3⟩ := pairwise_two_error o f permuted x y hx
        obtain ⟨v, hv⟩ := h l m n sm sn h1 h2
        rw [h3] at hv
        cases hv
  constructor
  · rw [hdef, hdef]
    simp only [rearranged_coded_iff h hd, rearranged_coded_iff h' hd']
    constructor
    · intro h1 l m n sm sn c1 c2
      obtain ⟨v, hv⟩ := h1 l m n sm sn c1 c2
      exact ⟨v, (hf _ _ _ _ _ _ c1 c2).1 hv⟩
    · intro h1 l m n sm sn c1 c2
      obtain ⟨v, hv⟩ := h1 l m n sm sn c1 c2
      exact ⟨v, (hf _ _ _ _ _ _ c1 c2).2 hv⟩
  · intro out out' h1 h2
    obtain ⟨n1, e1, _⟩ := C42_entries o f permuted a a' hc hc' out h1
    obtain ⟨n2, e2, _⟩ := C42_entries o' f' permuted' b b' (rearranged_commas h hd hc)
      (rearranged_commas h' hd' hc') out' h2
    rw [List.perm_ext_iff_of_nodup (List.Nodup.of_map Prod.fst n1) (List.Nodup.of_map Prod.fst n2)]
    rintro ⟨k, v⟩
    rw [e1, e2]
    constructor
    · rintro ⟨l, m, n, sm, sn, c1, c2, c3, c4⟩
      exact ⟨l, m, n, sm, sn, (rearranged_coded_iff h hd _ _ _).2 c1,
        (rearranged_coded_iff h' hd' _ _ _).2 c2, c3, (hf _ _ _ _ _ _ c1 c2).1 c4⟩
    · rintro ⟨l, m, n, sm, sn, c1, c2, c3, c4⟩
      have d1 := (rearranged_coded_iff h hd _ _ _).1 c1
      have d2 := (rearranged_coded_iff h' hd' _ _ _).1 c2
      exact ⟨l, m, n, sm, sn, d1, d2, c3, (hf _ _ _ _ _ _ d1 d2).2 c4⟩

end

/-! ## The similarities -/

/-- The similarity functions, whose values on two valid segmentations do not depend on which comes
first, nor on set orders. -/
theorem similarity_stable {rt rt' : Runtime} {kw : SimKw} (hw : Supplied kw.weight)
    (hr : kw.returnParts = false) {items : Items} (hv : AllValid kw.boundaryFormat items)
    (hs : kw.boundaryFormat ≠ .sets ∨ (AllShared rt kw.boundaryFormat items ∧
      AllShared rt' kw.boundaryFormat items)) {f : Runtime → SimKw → Seg → Seg → Py MetricOut}
    (hf : f = boundarySimilarity ∨ f = segmentationSimilarity) {label m n : Name} {sm sn : Seg}
    (hm : Coded items label m sm) (hn : Coded items label n sn) :
    f rt kw sm sn = f rt kw sn sm ∧ f rt kw sm sn = f rt' kw sm sn := by
  obtain ⟨bm, dm⟩ := hv _ _ _ hm
  obtain ⟨bn, dn⟩ := hv _ _ _ hn
  have key : ∀ rt1 rt2 : Runtime, (kw.boundaryFormat ≠ .sets ∨ (AllShared rt1 kw.boundaryFormat items ∧
      AllShared rt2 kw.boundaryFormat items)) → f rt1 kw sm sn = f rt2 kw sn sm := by
    intro rt1 rt2 h
    rcases h with h | ⟨h1, h2⟩
    · have := C19_symmetric_one_type rt1 rt2 kw hw hr h sm sn bm bn dm dn
      rcases hf with rfl | rfl
      · exact this.1
      · exact this.2
    · have s1 := h1 _ _ _ _ _ _ _ hm hn dm dn
      have s2 := h2 _ _ _ _ _ _ _ hm hn dm dn
      rcases hf with rfl | rfl
      · exact C19_boundary_symmetric rt1 rt2 kw hw hr sm sn bm bn dm dn s1 s2
      · exact C19_segmentation_symmetric rt1 rt2 kw hw sm sn bm bn dm dn s1 s2
  have h1 := key rt rt (hs.imp_right (fun h => ⟨h.1, h.1⟩))
  have h2 := key rt' rt (hs.imp_right (fun h => ⟨h.2, h.1⟩))
  exact ⟨h1, h1.trans h2.symm⟩

/-- C90: what a similarity gives for a dataset, and for the same with items and codings in another order:
the same values, and with `permuted` under the same keys. -/
theorem C90_similarity (o o' : ClassOrder Name) {rt rt' : Runtime} {kw : SimKw}
    (hw : Supplied kw.weight) (hr : kw.returnParts = false) (k k' : BoundaryFormat) (permuted : Bool)
    {d d' : Dataset} (hfmt : d'.boundaryFormat = d.boundaryFormat) (h : Rearranged d.items d'.items)
    (hd : IsDict d.items) (hc : NoCommas d.items) (hv : AllValid d.boundaryFormat d.items)
    (hs : d.boundaryFormat ≠ .sets ∨ (AllShared rt d.boundaryFormat d.items ∧
      AllShared rt' d.boundaryFormat d.items)) {f : Runtime → SimKw → Seg → Seg → Py MetricOut}
    (hf : f = boundarySimilarity ∨ f = segmentationSimilarity) (hne : d.items ≠ []) :
    ((∃ out, fncMetric o (fun fmt => f rt { kw with boundaryFormat := fmt }) k permuted
        { args := [.dataset d] } = .ok (.pairs out)) ↔
      ∃ out, fncMetric o' (fun fmt => f rt' { kw with boundaryFormat := fmt }) k' permuted
        { args := [.dataset d'] } = .ok (.pairs out)) ∧
    ∀ out out', fncMetric o (fun fmt => f rt { kw with boundaryFormat := fmt }) k permuted
        { args := [.dataset d] } = .ok (.pairs out) →
      fncMetric o' (fun fmt => f rt' { kw with boundaryFormat := fmt }) k' permuted
        { args := [.dataset d'] } = .ok (.pairs out') →
      (out.map Prod.snd).Perm (out'.map Prod.snd) ∧ (permuted = true → out.Perm out') := by
  have hne' : d'.items ≠ [] := by
    obtain ⟨mid, h1, h2⟩ := h
    intro e
    rw [e] at h2
    cases h2
    exact hne (List.perm_nil.1 h1)
  have hstab := fun {label m n : Name} {sm sn : Seg} (hm : Coded d.items label m sm)
    (hn : Coded d.items label n sn) => similarity_stable (rt := rt) (rt' := rt')
      (kw := { kw with boundaryFormat := d.boundaryFormat }) hw hr hv hs hf hm hn
  have hpairs : ∀ (o : ClassOrder Name) (g : BoundaryFormat → Seg → Seg → Py MetricOut)
      (k : BoundaryFormat) (x : Dataset) (out : List (Name × MetricOut)), x.items ≠ [] →
      (fncMetric o g k permuted { args := [.dataset x] } = .ok (.pairs out) ↔
        computePairwiseValues o (g x.boundaryFormat) permuted x.items none = .ok out) := by
    intro o g k x out hx
    rw [C44_accepts o g k permuted _ (.dataset x) ⟨hx, Or.inl rfl⟩]
    simp only [reply]
    cases computePairwiseValues o (g x.boundaryFormat) permuted x.items none <;> simp [Except.map]
  simp only [hpairs _ _ _ _ _ hne, hpairs _ _ _ _ _ hne', hfmt]
  cases permuted with
  | true =>
    obtain ⟨p1, p2⟩ := C90_permuted o o' (f := f rt { kw with boundaryFormat := d.boundaryFormat })
      (f' := f rt' { kw with boundaryFormat := d.boundaryFormat }) hd hc h
      (fun label m n sm sn v _ c1 c2 => by rw [(hstab c1 c2).2])
    exact ⟨p1, fun out out' h1 h2 => ⟨(p2 out out' h1 h2).map _, fun _ => p2 out out' h1 h2⟩⟩
  | false =>
    obtain ⟨p1, p2⟩ := C90_symmetric o o' (f := f rt { kw with boundaryFormat := d.boundaryFormat })
      (f' := f rt' { kw with boundaryFormat := d.boundaryFormat }) hd hc h
      (fun label m n sm sn v _ c1 c2 => by rw [(hstab c1 c2).2])
      (fun label m n sm sn v _ c1 c2 => by rw [(hstab c1 c2).1])
    exact ⟨p1, fun out out' h1 h2 => ⟨p2 out out' h1 h2, fun h => by cases h⟩⟩

/-- C90: so `summarize` gives the same five numbers. -/
theorem C90_summary {vals vals' : List (Name × PyNum)} (hn : ∀ e ∈ vals, e.2.NoFlt)
    (h : ((vals.map (fun e => (e.1, MetricOut.num e.2))).map Prod.snd).Perm
      ((vals'.map (fun e => (e.1, MetricOut.num e.2))).map Prod.snd)) :
    summarize (vals.map Prod.snd) = summarize (vals'.map Prod.snd) := by
  apply summarize_perm
  · have := h.filterMap (fun m => match m with | .num x => some x | _ => none)
    simpa [List.filterMap_map, Function.comp_def] using this
  · intro x hx
    obtain ⟨e, he, rfl⟩ := List.mem_map.1 hx
    exact hn e he

/-- Two coders of one item. -/
def exForth : Items := [("x".toList, [("a".toList, mass [1, 1, 4]), ("b".toList, mass [6])])]

/-- The same, the other coder first. -/
def exBack : Items := [("x".toList, [("b".toList, mass [6]), ("a".toList, mass [1, 1, 4])])]

theorem exForth_back : Rearranged exForth exBack :=
  ⟨exForth, .refl _, .cons ⟨rfl, .swap _ _ _⟩ .nil⟩

theorem exForth_dict : IsDict exForth := by
  constructor
  · decide +kernel
  · decide +kernel

theorem exForth_commas : NoCommas exForth := by
  have key : ∀ e ∈ exForth, ∀ c ∈ e.2, ',' ∉ c.1 := by decide +kernel
  rintro label m s ⟨c, h1, h2⟩
  exact key _ (dictGet_mem h1) _ (dictGet_mem h2)

/-- The hypotheses of `C90_permuted` and its conclusion, for a metric that is not symmetric. -/
example : ∃ out out', computePairwiseValues ascN (pk {}) true exForth none = .ok out ∧
    computePairwiseValues ascN (pk {}) true exBack none = .ok out' ∧ out.length = 2 ∧ out.Perm out' := by
  have h : (computePairwiseValues ascN (pk {}) true exForth none).toOption.map List.length = some 2 := by
    decide +kernel
  obtain ⟨h1, h2⟩ := C90_permuted ascN ascN (f := pk {}) (f' := pk {}) exForth_dict exForth_commas
    exForth_back (fun _ _ _ _ _ _ _ _ _ => Iff.rfl)
  cases ho : computePairwiseValues ascN (pk {}) true exForth none with
  | error e => rw [ho] at h; cases h
  | ok out =>
    rw [ho] at h
    obtain ⟨out', ho'⟩ := h1.1 ⟨out, ho⟩
    exact ⟨out, out', rfl, ho', Option.some.inj h, h2 out out' ho ho'⟩

/-- C90 has its limits: without `permuted` the keys depend on the order of the codings, and for a metric
that is not symmetric so do the values. -/
theorem C90_keys : Rearranged exForth exBack ∧
    computePairwiseValues ascN (boundarySimilarity .ascending {}) false exForth none =
      .ok [("x,a,b".toList, .num (.dec 0))] ∧
    computePairwiseValues ascN (boundarySimilarity .ascending {}) false exBack none =
      .ok [("x,b,a".toList, .num (.dec 0))] ∧
    computePairwiseValues ascN (pk {}) false exForth none = .ok [("x,a,b".toList, .num (.dec (2 / 3)))] ∧
    computePairwiseValues ascN (pk {}) false exBack none = .ok [("x,b,a".toList, .num (.dec (1 / 2)))] := by
  refine ⟨exForth_back, ?_⟩
  decide +kernel

end SegEval.Props
