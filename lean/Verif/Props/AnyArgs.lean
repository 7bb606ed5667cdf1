import Verif.Lemmas.AnyArgs
import Verif.Props.Compute

/-!
# C44, C100: arguments of other kinds
-/

namespace SegEval.Props

open SegEval Spec

/-! ## C100 -/

/-- C100: a value that is no segmentation of the declared format raises, on either side; with an
unsupported format every value does. -/
theorem C100_similarity_raises (rt : Runtime) {kw : SimKw} {x y : SeqArg}
    (h : ¬ Fits kw.boundaryFormat x ∨ ¬ Fits kw.boundaryFormat y) :
    (∃ e, boundarySimilarityAny rt kw x y = .error e) ∧ ∃ e, segmentationSimilarityAny rt kw x y = .error e := by
  obtain ⟨e, he⟩ := anyBStrings_error h
  unfold boundarySimilarityAny segmentationSimilarityAny
  rw [he]
  exact ⟨⟨e, rfl⟩, e, rfl⟩

/-- C100: the same for pk and window_diff, for which boundary sets fit never. -/
theorem C100_window_raises {kw : WinKw} {x y : SeqArg}
    (h : kw.boundaryFormat = .sets ∨ ¬ Fits kw.boundaryFormat x ∨ ¬ Fits kw.boundaryFormat y) :
    (∃ e, windowDiffAny kw x y = .error e) ∧ ∃ e, pkAny kw x y = .error e := window_error h

/-- C100: as positions, any two sequences (strings, sequences of sets, dicts) are compared, as if the
elements of each were numbered, equal elements with equal numbers. -/
theorem C100_positions (rt : Runtime) {kw : SimKw} (hf : kw.boundaryFormat = .position) {x y : SeqArg}
    {φ ψ : Label → ℤ} (hx : ∀ e ∈ x.elements, ∀ e' ∈ x.elements, φ e = φ e' → e = e')
    (hy : ∀ e ∈ y.elements, ∀ e' ∈ y.elements, ψ e = ψ e' → e = e') :
    boundarySimilarityAny rt kw x y = boundarySimilarity rt kw (numbered φ x) (numbered ψ y) ∧
      segmentationSimilarityAny rt kw x y = segmentationSimilarity rt kw (numbered φ x) (numbered ψ y) := by
  apply similarity_any
  rw [hf, anyBStrings_of (by decide), ← numbered_masses hx, ← numbered_masses hy]
  rfl

/-- C100: for segmentations of the declared format the metrics are those of the other theorems. -/
theorem C100_fitting (rt : Runtime) {kw : SimKw} {a b : Seg}
    (ha : toBString kw.boundaryFormat a ≠ .error .unmodelled)
    (hb : toBString kw.boundaryFormat b ≠ .error .unmodelled) :
    boundarySimilarityAny rt kw (.seg a) (.seg b) = boundarySimilarity rt kw a b ∧
      segmentationSimilarityAny rt kw (.seg a) (.seg b) = segmentationSimilarity rt kw a b := similarity_seg ha hb

/-- The labels of a document as a string. -/
def exLetters : SeqArg := .seg (.str "aaabbc".toList)

/-- C100 at an example: letters as labels. -/
example : ∃ φ : Label → ℤ, (∀ e ∈ exLetters.elements, ∀ e' ∈ exLetters.elements, φ e = φ e' → e = e') ∧
    numbered φ exLetters = .ints true [⟨97, 0⟩, ⟨97, 0⟩, ⟨97, 0⟩, ⟨98, 0⟩, ⟨98, 0⟩, ⟨99, 0⟩] ∧
    boundarySimilarityAny .ascending { boundaryFormat := .position } exLetters (.seg (mass [1, 1, 1, 1, 2, 2])) =
      .ok (.num (.dec (1 / 4))) := by
  refine ⟨fun | .text (c :: _) => c.toNat | _ => 0, by decide +kernel, by decide +kernel, by decide +kernel⟩

/-- Masses declared as NLTK strings, and sets declared as masses. -/
example : ¬ Fits .nltk (.seg (mass [2, 3])) ∧ ¬ Fits .mass (.seg (.sets [{1}, ∅])) ∧
    boundarySimilarityAny .ascending { boundaryFormat := .nltk } (.seg (mass [2, 3])) (.seg (mass [2, 3])) =
      .error .attributeError ∧
    pkAny {} (.seg (.sets [{1}, ∅])) (.seg (mass [2, 3])) = .error .typeError := by
  refine ⟨?_, ?_, by decide +kernel, by decide +kernel⟩
  · rintro ⟨s, h⟩; cases h
  · intro h
    obtain ⟨n, hn⟩ := h (.set {1}) (by simp [SeqArg.elements])
    cases hn

/-! ## C44: a dict in the place of a segmentation -/

theorem takenAs_sequence {h : ArgVal} {a : SeqArg} (ht : TakenAs h a) : h.wrapInt.sequence = a := by
  cases ht with
  | seg s => rfl
  | int n => rfl
  | dict hd => cases hd <;> rfl

theorem takenAs_truthy {h : ArgVal} {a : SeqArg} (ht : TakenAs h a) :
    h.wrapInt.truthy = true ↔ a.elements ≠ [] := by
  cases ht with
  | seg s => cases s <;> simp [ArgVal.wrapInt, ArgVal.truthy, Seg.truthy, SeqArg.elements]
  | int n => simp [ArgVal.wrapInt, ArgVal.truthy, Seg.truthy, SeqArg.elements]
  | dict hd => cases hd <;> simp [ArgVal.wrapInt, ArgVal.truthy, SeqArg.elements]

/-- C44: with a dict or dataset in the place of a segmentation, the metric is given the sequence of its
keys. -/
theorem C44_mixed {R : Type} (o : ClassOrder Name) (f : BoundaryFormat → SeqArg → SeqArg → Py R)
    (fmt : BoundaryFormat) (permuted : Bool) {c : CallArgs} {a b : SeqArg} (hm : Mixed c a b) :
    fncMetricAny o f fmt permuted c = (f fmt a b).map .single := by
  obtain ⟨ha, hb, h, r, h1, h2, h3, h4, h5⟩ := hm
  unfold fncMetricAny
  rw [parse_two h3]
  simp only
  rw [if_neg (by simp [ArgVal.truthy]), if_pos (by rw [(takenAs_truthy h1).2 ha, (takenAs_truthy h2).2 hb]; rfl)]
  split
  · rename_i dh dr e1 e2
    exact absurd ⟨⟨dh, dataset_of_wrap e1⟩, dr, dataset_of_wrap e2⟩ h5
  · rw [if_neg (by simp), takenAs_sequence h1, takenAs_sequence h2]
    cases f fmt a b <;> rfl

theorem any_eq {R : Type} (o : ClassOrder Name) (f : BoundaryFormat → SeqArg → SeqArg → Py R)
    (fmt : BoundaryFormat) (permuted : Bool) {c : CallArgs} {h r d : ArgVal} {extra : Bool}
    (hp : parseArgs c = .ok (h, r, d, extra))
    (hc : d.truthy = true ∨ (h.wrapInt.truthy && r.wrapInt.truthy) = false ∨
      (∃ s t, h.wrapInt = .seg s ∧ r.wrapInt = .seg t) ∨ ∃ s t, h.wrapInt = .dataset s ∧ r.wrapInt = .dataset t) :
    fncMetricAny o f fmt permuted c = fncMetric o (fun fmt a b => f fmt (.seg a) (.seg b)) fmt permuted c := by
  unfold fncMetricAny fncMetric
  rw [hp]
  simp only
  by_cases hd : d.truthy = true
  · rw [if_pos hd, if_pos hd]
    cases d <;> rfl
  · rw [if_neg hd, if_neg hd]
    by_cases hb : (h.wrapInt.truthy && r.wrapInt.truthy) = true
    · rw [if_pos hb, if_pos hb]
      rcases hc with hc | hc | ⟨s, t, e1, e2⟩ | ⟨s, t, e1, e2⟩
      · exact absurd hc hd
      · rw [hb] at hc; cases hc
      · rw [e1, e2]
        cases extra <;> rfl
      · rw [e1, e2]
        rfl
    · rw [if_neg hb, if_neg hb]

theorem takenAs_or (h : ArgVal) (ht : h.wrapInt.truthy = true) :
    (∃ s, h.wrapInt = .seg s ∧ TakenAs h (.seg s)) ∨ ∃ d, DictLike h d ∧ TakenAs h (.keys (d.map Prod.fst)) := by
  cases h with
  | none => cases ht
  | int n => exact .inl ⟨_, rfl, .int n⟩
  | seg s => exact .inl ⟨_, rfl, .seg s⟩
  | dataset d => exact .inr ⟨_, .dataset d, .dict (.dataset d)⟩
  | dict d => exact .inr ⟨_, .dict d, .dict (.dict d)⟩

/-- C44: the three documented requests are answered as before when other values are let in. -/
theorem C44_any_accepts {R : Type} (o : ClassOrder Name) (f : BoundaryFormat → SeqArg → SeqArg → Py R)
    (fmt : BoundaryFormat) (permuted : Bool) {c : CallArgs} {q : Request} (h : Asks c q) :
    fncMetricAny o f fmt permuted c = reply (fun fmt a b => f fmt (.seg a) (.seg b)) fmt
      (fun g a b => computePairwiseValues o g permuted a b) q := by
  rw [← C44_accepts o _ fmt permuted c q h]
  cases q with
  | segmentations a b =>
    obtain ⟨_, _, x, y, h1, h2, h3⟩ := h
    exact any_eq o f fmt permuted (parse_two h3)
      (.inr (.inr (.inl ⟨_, _, wrap_standsFor h1, wrap_standsFor h2⟩)))
  | datasets a b =>
    obtain ⟨_, _, _, h3⟩ := h
    exact any_eq o f fmt permuted (parse_two h3) (.inr (.inr (.inr ⟨_, _, rfl, rfl⟩)))
  | dataset d =>
    obtain ⟨h1, h3⟩ := h
    exact any_eq o f fmt permuted (parse_one h3) (.inl ((items_truthy d).2 h1))

/-- C44: a call that returns either asked for one of the three, or returns the empty dict, or has a dict or
dataset in the place of a segmentation. -/
theorem C44_any_else {R : Type} (o : ClassOrder Name) (f : BoundaryFormat → SeqArg → SeqArg → Py R)
    (fmt : BoundaryFormat) (permuted : Bool) {c : CallArgs} {out : CallOut R}
    (h : fncMetricAny o f fmt permuted c = .ok out) :
    out = .pairs [] ∨ (∃ q, Asks c q) ∨ ∃ a b, Mixed c a b := by
  cases hp : parseArgs c with
  | error e => unfold fncMetricAny at h; rw [hp] at h; cases h
  | ok p =>
    obtain ⟨x, y, d, extra⟩ := p
    by_cases hc : d.truthy = true ∨ (x.wrapInt.truthy && y.wrapInt.truthy) = false ∨
      (∃ s t, x.wrapInt = .seg s ∧ y.wrapInt = .seg t) ∨ ∃ s t, x.wrapInt = .dataset s ∧ y.wrapInt = .dataset t
    · rw [any_eq o f fmt permuted hp hc] at h
      rcases C44_nothing_else o _ fmt permuted c out h with h | h
      · exact .inl h
      · exact .inr (.inl h)
    · push Not at hc
      obtain ⟨c1, c2, c3, c4⟩ := hc
      have c2 : (x.wrapInt.truthy && y.wrapInt.truthy) = true := by
        cases hxy : (x.wrapInt.truthy && y.wrapInt.truthy) with
        | true => rfl
        | false => exact absurd hxy c2
      have c2' := c2
      rw [Bool.and_eq_true] at c2'
      have two : extra = false → Two c x y := by
        intro he
        rcases parse_cases c hp with ⟨_, hc⟩ | ⟨rfl, _, _⟩
        · rcases hc he with ⟨rfl, _⟩ | hc
          · exact absurd c2'.1 (by simp [ArgVal.wrapInt, ArgVal.truthy])
          · exact hc
        · exact absurd c2'.1 (by simp [ArgVal.wrapInt, ArgVal.truthy])
      have hex : extra = false := by
        cases extra with
        | false => rfl
        | true =>
          unfold fncMetricAny at h
          rw [hp] at h
          simp only at h
          rw [if_neg c1, if_pos c2] at h
          generalize x.wrapInt = x' at h c4
          generalize y.wrapInt = y' at h c4
          cases x' <;> cases y' <;> first
            | exact absurd rfl (c4 _ _ rfl)
            | cases h
      have nd : ¬ ((∃ d, x = .dataset d) ∧ ∃ d, y = .dataset d) := by
        rintro ⟨⟨s, rfl⟩, t, rfl⟩
        exact c4 s t rfl rfl
      refine .inr (.inr ?_)
      rcases takenAs_or x c2'.1 with ⟨s, e1, t1⟩ | ⟨s, e1, t1⟩
      · rcases takenAs_or y c2'.2 with ⟨t, e2, t2⟩ | ⟨t, e2, t2⟩
        · exact absurd e2 (c3 s t e1)
        · exact ⟨_, _, (takenAs_truthy t1).1 c2'.1, (takenAs_truthy t2).1 c2'.2, x, y, t1, t2, two hex,
            .inr ⟨_, e2⟩, nd⟩
      · rcases takenAs_or y c2'.2 with ⟨t, e2, t2⟩ | ⟨t, e2, t2⟩
        · exact ⟨_, _, (takenAs_truthy t1).1 c2'.1, (takenAs_truthy t2).1 c2'.2, x, y, t1, t2, two hex,
            .inl ⟨_, e1⟩, nd⟩
        · exact ⟨_, _, (takenAs_truthy t1).1 c2'.1, (takenAs_truthy t2).1 c2'.2, x, y, t1, t2, two hex,
            .inl ⟨_, e1⟩, nd⟩

theorem mixed_keys {c : CallArgs} {a b : SeqArg} (h : Mixed c a b) :
    (∃ l, l ≠ [] ∧ a = .keys l) ∨ ∃ l, l ≠ [] ∧ b = .keys l := by
  obtain ⟨ha, hb, x, y, h1, h2, _, h4, _⟩ := h
  rcases h4 with ⟨d, hd⟩ | ⟨d, hd⟩
  · left
    cases h1 with
    | seg s => cases hd
    | int n => cases hd
    | dict h => exact ⟨_, fun he => ha (by rw [he]; rfl), rfl⟩
  · right
    cases h2 with
    | seg s => cases hd
    | int n => cases hd
    | dict h => exact ⟨_, fun he => hb (by rw [he]; rfl), rfl⟩

theorem keys_misfit {fmt : BoundaryFormat} (hf : fmt ≠ .position) {l : List Name} (hl : l ≠ []) :
    ¬ Fits fmt (.keys l) := by
  obtain ⟨k, l, rfl⟩ := List.exists_cons_of_ne_nil hl
  have hk : Label.text k ∈ SeqArg.elements (.keys (k :: l)) := by simp [SeqArg.elements]
  cases fmt with
  | position => exact absurd rfl hf
  | mass => intro h; obtain ⟨n, hn⟩ := h _ hk; cases hn
  | sets => intro h; obtain ⟨n, hn⟩ := h _ hk; cases hn
  | nltk => rintro ⟨s, hs⟩; cases hs
  | other => exact id

/-- C44: a dict or dataset in the place of a segmentation raises in every metric, unless the boundary
format is `position`. -/
theorem C44_mixed_raises (rt : Runtime) (o : ClassOrder Name) (skw : SimKw) (wkw : WinKw) {fmt : BoundaryFormat}
    (hf : fmt ≠ .position) (permuted : Bool) {c : CallArgs} {a b : SeqArg} (hm : Mixed c a b) :
    (∃ e, fncMetricAny o (fun fmt => boundarySimilarityAny rt { skw with boundaryFormat := fmt }) fmt permuted c =
      .error e) ∧
    (∃ e, fncMetricAny o (fun fmt => segmentationSimilarityAny rt { skw with boundaryFormat := fmt }) fmt permuted c =
      .error e) ∧
    (∃ e, fncMetricAny o (fun fmt => windowDiffAny { wkw with boundaryFormat := fmt }) fmt permuted c = .error e) ∧
    ∃ e, fncMetricAny o (fun fmt => pkAny { wkw with boundaryFormat := fmt }) fmt permuted c = .error e := by
  have hfit : ¬ Fits fmt a ∨ ¬ Fits fmt b := by
    rcases mixed_keys hm with ⟨l, hl, rfl⟩ | ⟨l, hl, rfl⟩
    · exact .inl (keys_misfit hf hl)
    · exact .inr (keys_misfit hf hl)
  simp only [C44_mixed o _ fmt permuted hm]
  obtain ⟨⟨e1, h1⟩, e2, h2⟩ := C100_similarity_raises rt (kw := { skw with boundaryFormat := fmt }) hfit
  obtain ⟨⟨e3, h3⟩, e4, h4⟩ := C100_window_raises (kw := { wkw with boundaryFormat := fmt }) (.inr hfit)
  exact ⟨⟨e1, by rw [h1]; rfl⟩, ⟨e2, by rw [h2]; rfl⟩, ⟨e3, by rw [h3]; rfl⟩, e4, by rw [h4]; rfl⟩

/-- Labels that are all different. -/
def distinctLabels (n : ℕ) : Seg := .ints true ((List.range n).map (fun (i : ℕ) => ⟨(i : ℤ), 0⟩))

theorem keys_strings {l : List Name} (hl : l.Nodup) :
    anyBString .position (.keys l) = toBString .position (distinctLabels l.length) := by
  have e : numbered (fun | .text k => (l.idxOf k : ℤ) | _ => 0) (.keys l) = distinctLabels l.length := by
    simp only [numbered, distinctLabels, SeqArg.elements, List.map_map]
    congr 1
    apply List.ext_getElem (by simp)
    intro i h1 h2
    simp [hl.idxOf_getElem]
  rw [← e, numbered_masses]
  simp only [SeqArg.elements, List.mem_map]
  rintro _ ⟨k, hk, rfl⟩ _ ⟨k', hk', rfl⟩ h
  have h : l.idxOf k = l.idxOf k' := Int.ofNat_inj.1 h
  rw [(List.idxOf_inj hk).1 h]

theorem ints_strings (t : Bool) (l : List SegEval.Obj) :
    anyBString .position (.seg (.ints t l)) = toBString .position (.ints t l) := by
  simp only [anyBString, toBString, SeqArg.elements, convertPositionsToMasses]
  rw [← runLengths_eq]
  congr 2
  rw [← runLengths_map (f := Label.int) (by intro _ _ _ _ h; cases h; rfl), List.map_map]
  rfl

/-- C44 fails: with the boundary format `position`, a dict or dataset beside a segmentation is compared
with it, as if it had as many segments of one unit as it has items; nothing is read but the number of items. -/
theorem C44_mixed_number (rt : Runtime) (o : ClassOrder Name) (kw : SimKw) (permuted : Bool) {c : CallArgs}
    {x : ArgVal} {d : Items} (hx : DictLike x d) (hd : (d.map Prod.fst).Nodup) (hne : d ≠ []) {t : Bool}
    {l : List SegEval.Obj} (hl : l ≠ []) (hc : Two c x (.seg (.ints t l))) :
    fncMetricAny o (fun fmt => boundarySimilarityAny rt { kw with boundaryFormat := fmt }) .position permuted c =
      (boundarySimilarity rt { kw with boundaryFormat := .position } (distinctLabels d.length) (.ints t l)).map .single ∧
    fncMetricAny o (fun fmt => segmentationSimilarityAny rt { kw with boundaryFormat := fmt }) .position permuted c =
      (segmentationSimilarity rt { kw with boundaryFormat := .position } (distinctLabels d.length) (.ints t l)).map
        .single := by
  have hm : Mixed c (.keys (d.map Prod.fst)) (.seg (.ints t l)) :=
    ⟨by simpa [SeqArg.elements] using hne, by simpa [SeqArg.elements] using hl, x, _, .dict hx, .seg _, hc,
      .inl ⟨d, hx⟩, by rintro ⟨_, _, h⟩; cases h⟩
  simp only [C44_mixed o _ .position permuted hm]
  have h := similarity_any (rt := rt) (kw := { kw with boundaryFormat := .position })
    (x := .keys (d.map Prod.fst)) (y := .seg (.ints t l)) (a := distinctLabels d.length) (b := .ints t l) (by
      change anyBStrings .position _ _ = toBStrings .position _ _
      rw [anyBStrings_of (by decide), keys_strings hd, List.length_map,
        ints_strings]
      rfl)
  rw [h.1, h.2]
  exact ⟨rfl, rfl⟩

/-- C44 fails: window_diff without the fix compares such a dict too, as a sequence of labels all different. -/
theorem C44_mixed_window (o : ClassOrder Name) {kw : WinKw} (hk : kw.lamprierFix = false) (permuted : Bool)
    {c : CallArgs} {x : ArgVal} {d : Items} (hx : DictLike x d) (hne : d ≠ []) {t : Bool}
    {l : List SegEval.Obj} (hl : l ≠ []) (hc : Two c x (.seg (.ints t l))) :
    fncMetricAny o (fun fmt => windowDiffAny { kw with boundaryFormat := fmt }) .position permuted c =
      (windowDiff { kw with boundaryFormat := .position } (distinctLabels d.length) (.ints t l)).map .single := by
  have hm : Mixed c (.keys (d.map Prod.fst)) (.seg (.ints t l)) :=
    ⟨by simpa [SeqArg.elements] using hne, by simpa [SeqArg.elements] using hl, x, _, .dict hx, .seg _, hc,
      .inl ⟨d, hx⟩, by rintro ⟨_, _, h⟩; cases h⟩
  rw [C44_mixed o _ .position permuted hm]
  simp only [windowDiffAny, anyPositions, windowDiff, distinctLabels, positionsChecked, toPositions, List.length_map,
    createPairedWindow, hk]
  by_cases he : l.length ≠ (List.range d.length).length
  · rw [if_pos he, if_pos he]
  · rw [if_neg he, if_neg he]
    rfl

/-- C44: pk counts nothing with such a dict, and window_diff with the fix raises. -/
theorem C44_mixed_slices {kw : WinKw} {x y : SeqArg} (hd : x.isDict = true ∨ y.isDict = true) :
    (kw.boundaryFormat = .position → kw.lamprierFix = true → ∃ e, windowDiffAny kw x y = .error e) ∧
    (kw.returnParts = true → ∀ v, pkAny kw x y = .ok v → v = .parts (.int 0) (.int 0)) := by
  constructor
  · intro hf hk
    unfold windowDiffAny
    rw [hf]
    cases hy : anyPositions .position y with
    | error e => exact ⟨e, rfl⟩
    | ok r =>
      cases hx : anyPositions .position x with
      | error e => exact ⟨e, rfl⟩
      | ok h =>
        simp only
        unfold windowDiff
        simp only
        cases hp : positionsChecked .position h r with
        | error e => exact ⟨e, rfl⟩
        | ok p =>
          have hp' : (p.2.1 && p.1.1) = false := by
            rcases hd with hd | hd
            · cases x with
              | seg s => cases hd
              | keys l =>
                cases hx
                cases r with
                | ints t m =>
                  simp only [positionsChecked, toPositions] at hp
                  split at hp
                  · cases hp
                  · cases hp; simp
                | sets m => cases hp
                | str m => cases hp
            · cases y with
              | seg s => cases hd
              | keys l =>
                cases hy
                cases h with
                | ints t m =>
                  simp only [positionsChecked, toPositions] at hp
                  split at hp
                  · cases hp
                  · cases hp; simp
                | sets m => cases hp
                | str m => cases hp
          simp only
          split
          · exact ⟨_, rfl⟩
          · simp only [createPairedWindow, hk, hp', if_true]
            exact ⟨_, rfl⟩
  · intro hk v hv
    have hd' : (x.isDict || y.isDict) = true := by rw [Bool.or_eq_true]; exact hd
    unfold pkAny at hv
    split at hv
    · cases hv
    · split at hv
      · cases hv
      · split at hv
        · cases hv
        · rename_i hp
          split at hv
          · cases hv
          · rename_i w hw
            split at hv
            · cases hv
            · rename_i hn
              rw [hd', Bool.true_and, Bool.not_eq_true, Bool.not_eq_false', List.isEmpty_iff] at hn
              have hw' : effectiveWindow { kw with boundaryFormat := .position } _ = .ok w := hw
              simp only [pk, hp] at hv
              rw [hw'] at hv
              simp only [pkDifferences, hn, forLoop, List.length_nil, hk] at hv
              cases hv
              rfl

/-- Six items, of which nothing but the number matters. -/
def exSix : Items := ["a", "b", "c", "d", "e", "f"].map (fun k => (k.toList, [("x".toList, mass [2, 3])]))

/-- C44 at an example: a dataset of six items beside six labels. -/
example : Two { args := [.dataset ⟨exSix, ∅, .mass⟩, .seg (mass [1, 1, 1, 2, 2, 2])] } (.dataset ⟨exSix, ∅, .mass⟩)
      (.seg (.ints true [⟨1, 0⟩, ⟨1, 0⟩, ⟨1, 0⟩, ⟨2, 0⟩, ⟨2, 0⟩, ⟨2, 0⟩])) ∧
    DictLike (.dataset ⟨exSix, ∅, .mass⟩) exSix ∧ (exSix.map Prod.fst).Nodup ∧
    boundarySimilarity .ascending { boundaryFormat := .position } (distinctLabels 6) (mass [1, 1, 1, 2, 2, 2]) =
      .ok (.num (.dec (1 / 5))) ∧
    windowDiff { boundaryFormat := .position, windowSize := some 2 } (distinctLabels 6) (mass [1, 1, 1, 2, 2, 2]) =
      .ok (.num (.dec 1)) ∧
    pkAny { boundaryFormat := .position } (.keys (exSix.map Prod.fst)) (.seg (mass [1, 1, 1, 2, 2, 2])) =
      .error .typeError ∧
    pkAny { boundaryFormat := .position, windowSize := some 6, returnParts := true }
      (.keys (exSix.map Prod.fst)) (.seg (mass [1, 1, 1, 2, 2, 2])) = .ok (.parts (.int 0) (.int 0)) :=
  ⟨.inl rfl, .dataset _, by decide +kernel, by decide +kernel, by decide +kernel, by decide +kernel,
    by decide +kernel⟩

/-- With masses the same call raises. -/
example : Mixed { args := [.dict exSix, .seg (mass [3, 3])] } (.keys (exSix.map Prod.fst)) (.seg (mass [3, 3])) ∧
    boundarySimilarityAny .ascending {} (.keys (exSix.map Prod.fst)) (.seg (mass [3, 3])) = .error .typeError :=
  ⟨⟨by decide +kernel, by decide +kernel, _, _, .dict (.dict _), .seg _, .inl rfl, .inl ⟨_, .dict _⟩,
    by rintro ⟨⟨_, h⟩, _⟩; cases h⟩, by decide +kernel⟩

end SegEval.Props
