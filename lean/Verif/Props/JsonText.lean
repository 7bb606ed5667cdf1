import Verif.Lemmas.JsonLoad
import Verif.Props.DataFiles

/-!
# C85–C86: the text of JSON files
-/

namespace SegEval.Props

open SegEval Spec

/-! ## C85 -/

/-- C85: a text has one value without lone surrogates at most. -/
theorem C85_paired_unique {F : Floats} {text : Name} {v w : JVal} (h : JDoc F text v) (h' : JDoc F text w) : v = w :=
  jdoc_unique h h'

/-- C85 for texts without lone surrogates: a file loads exactly if its text is an object that says it is
linear and whose items are objects of arrays, strings or objects.  `C85_loads` is about all texts. -/
theorem C85_paired_loads (F : Floats) (text : Name) :
    (∃ d, inputJsonText F text = .ok d) ↔ ∃ entries, JDoc F text (.obj entries) ∧ Loadable entries := by
  constructor
  · rintro ⟨d, h⟩
    cases hp : parseJson F (universalNewlines text) with
    | error e => unfold inputJsonText at h; rw [hp] at h; cases h
    | ok v =>
      have hd := (doc_universal F _ _).1 ((parseJson_iff F _ _).1 hp)
      rw [inputJsonText_doc hd] at h
      obtain ⟨g, t, g', _, _, ht, _⟩ := id hd
      obtain ⟨entries, rfl, hl⟩ := (inputJson_ok_iff ht).1 ⟨d, h⟩
      exact ⟨entries, hd, hl⟩
  · rintro ⟨entries, hd, hl⟩
    rw [inputJsonText_doc hd]
    obtain ⟨g, t, g', _, _, ht, _⟩ := id hd
    exact (inputJson_ok_iff ht).2 ⟨entries, rfl, hl⟩

/-- C85 for texts without lone surrogates: a loaded dataset holds exactly the items and codings of the
document, each coding as a tuple, and all other entries as properties. -/
theorem C85_paired_holds {F : Floats} {text : Name} {d : DS (List JVal)} (h : inputJsonText F text = .ok d) :
    ∃ entries its, JDoc F text (.obj entries) ∧ dictGet entries kItems = some (.obj its) ∧
      IsDict2 d.items ∧
      (∀ k, dictGet d.properties k = if k = kItems then none else dictGet entries k) ∧
      (∀ l, HasItem d.items l ↔ ∃ v, dictGet its l = some v) ∧
      ∀ l m t, Has d.items l m t ↔
        ∃ cs v, dictGet its l = some (.obj cs) ∧ dictGet cs m = some v ∧ TupleOf v t := by
  obtain ⟨entries, hd, _⟩ := (C85_paired_loads F text).1 ⟨d, h⟩
  rw [inputJsonText_doc hd] at h
  obtain ⟨g, t, g', _, _, ht, _⟩ := id hd
  obtain ⟨h1, _, h2, its, h3, h4, h5⟩ := inputJson_holds ht h
  exact ⟨entries, its, hd, h3, h1, h2, h4, h5⟩

/-- C85 for texts without surrogate escapes: a file whose text is no document raises DataIOError. -/
theorem C85_paired_malformed {F : Floats} {text : Name} (hs : ¬ SurrogateEscape text)
    (h : ∀ v, ¬ JDoc F text v) : inputJsonText F text = .error .dataIOError := by
  unfold inputJsonText
  cases hp : parseJson F (universalNewlines text) with
  | ok v => exact absurd ((doc_universal F _ _).1 ((parseJson_iff F _ _).1 hp)) (h v)
  | error e =>
    rcases parseJson_error hp with rfl | ⟨_, h⟩
    · rfl
    · exact absurd (surrogate_universal h) hs

/-- C85 for texts without surrogate escapes: none raises anything but DataIOError, TypeError and
AttributeError. -/
theorem C85_paired_errors {F : Floats} {text : Name} {e : PyErr} (hs : ¬ SurrogateEscape text)
    (h : inputJsonText F text = .error e) : e = .dataIOError ∨ e = .typeError ∨ e = .attributeError := by
  unfold inputJsonText at h
  cases hp : parseJson F (universalNewlines text) with
  | ok v => rw [hp] at h; exact inputJson_errors h
  | error e' =>
    rw [hp] at h
    cases h
    rcases parseJson_error hp with rfl | ⟨_, h⟩
    · exact Or.inl rfl
    · exact absurd (surrogate_universal h) hs

/-- Reading floats for the examples: the literals as they stand. -/
def exFloats : Floats := ⟨id⟩

/-- A file with an escape, a float, a nested property and a key that is given twice. -/
def exJson : Name :=
  "{\"segmentation_type\": \"linear\", \"id\": [1.5, \"\\u00e9\", {}],\r\n \"items\": {\"x\": {\"m\": [2], \"m\": [2, -3]}}}".toList

example : (parseJson exFloats exJson).toOption.map (dumpJson 0) =
    some (dumpJson 0 (.obj [(kSegType, .str kLinear), (['i', 'd'], .arr [.float ['1', '.', '5'], .str ['é'], .obj []]),
      (kItems, .obj [(nX, .obj [(nM, .arr [.num 2, .num (-3)])])])])) := by decide +kernel

example : ∃ d, inputJsonText exFloats exJson = .ok d ∧
    d.items.map (fun it => (it.1, it.2.map (fun c => (c.1, c.2.map (dumpJson 0))))) =
      [(nX, [(nM, [['2'], ['-', '3']])])] := by
  have h : ((inputJsonText exFloats exJson).toOption.map (fun d =>
      d.items.map (fun it => (it.1, it.2.map (fun c => (c.1, c.2.map (dumpJson 0))))))) =
      some [(nX, [(nM, [['2'], ['-', '3']])])] := by decide +kernel
  cases hd : inputJsonText exFloats exJson with
  | error e => rw [hd] at h; cases h
  | ok d => rw [hd] at h; exact ⟨d, rfl, Option.some.inj h⟩

/-- The text is no document. -/
theorem not_doc {text : Name} (h : (parseJson exFloats text).toOption.isSome = false) (v : JVal) :
    ¬ JDoc exFloats text v := by
  intro hd
  rw [(parseJson_iff _ _ _).2 hd] at h
  cases h

/-- A comma too many, a leading zero, a single quote, an open string. -/
example : ∀ text ∈ ["[1,]".toList, "01".toList, "'x'".toList, "\"x".toList, "".toList, "1 2".toList, "+1".toList],
    ¬ SurrogateEscape text ∧ ∀ v, ¬ JDoc exFloats text v := by
  intro text ht
  constructor
  · rintro ⟨before, w, after, n, e, _⟩
    have hm : '\\' ∈ text := by rw [e]; simp
    clear e
    revert hm
    revert text
    decide +kernel
  · apply not_doc
    revert text
    decide +kernel

/-! ## C86 -/

/-- C86: the file that `output_linear_mass_json` writes is a document for the dataset's items and
properties, whatever the names and values. -/
theorem C86_document (F : Floats) {d : DS (List ℤ)} (hd : IsDict2 d.items)
    (hp : PyJson F (.obj d.properties)) :
    ∃ v, JDoc F (outputJsonText d) v ∧ SameJson v (outputData d) := by
  refine ⟨outputJson d, jdoc_of_text (doc_output F hd hp), ?_⟩
  intro p
  exact lookAt_sortKeys p _

/-- C86: the file is read back with the same items, codings and properties plus the segmentation type.
Partial: no property may be called `items`, and one called `segmentation_type` must be `'linear'`. -/
theorem C86_round_trip_partial (F : Floats) {d : DS (List ℤ)} (hd : IsDict2 d.items)
    (hp : PyJson F (.obj d.properties)) (hi : dictGet d.properties kItems = none)
    (hs : ∀ v, dictGet d.properties kSegType = some v → v = .str kLinear) :
    ∃ d', inputJsonText F (outputJsonText d) = .ok d' ∧ IsDict2 d'.items ∧
      (∀ l, HasItem d'.items l ↔ HasItem d.items l) ∧
      (∀ l m t, Has d'.items l m t ↔ ∃ v, Has d.items l m v ∧ t = v.map .num) ∧
      SameJson (.obj d'.properties) (.obj (dictSet d.properties kSegType (.str kLinear))) := by
  rw [inputJsonText_doc (jdoc_of_text (doc_output F hd hp))]
  cases hp with
  | obj hn hp => exact C55_partial d hd hn hi hs

/-- C86: the file has printable ASCII characters and line ends only. -/
theorem C86_ascii (F : Floats) {d : DS (List ℤ)} (hd : IsDict2 d.items)
    (hp : PyJson F (.obj d.properties)) :
    ∀ c ∈ outputJsonText d, c = '\n' ∨ (32 ≤ c.toNat ∧ c.toNat ≤ 126) :=
  plain_dump F 0 _ (sort_py F _ (output_py F hd hp))

/-- C86: two datasets give the same file exactly if they have the same items, codings and properties, in
whatever order these were added.  Partial as above. -/
theorem C86_same_partial (F : Floats) {d d' : DS (List ℤ)} (hd : IsDict2 d.items)
    (hp : PyJson F (.obj d.properties)) (hi : dictGet d.properties kItems = none)
    (hs : ∀ v, dictGet d.properties kSegType = some v → v = .str kLinear) (hd' : IsDict2 d'.items)
    (hp' : PyJson F (.obj d'.properties)) (hi' : dictGet d'.properties kItems = none)
    (hs' : ∀ v, dictGet d'.properties kSegType = some v → v = .str kLinear) :
    outputJsonText d = outputJsonText d' ↔
      (∀ l, HasItem d.items l ↔ HasItem d'.items l) ∧
      (∀ l m v, Has d.items l m v ↔ Has d'.items l m v) ∧
      SameJson (.obj (dictSet d.properties kSegType (.str kLinear)))
        (.obj (dictSet d'.properties kSegType (.str kLinear))) := by
  constructor
  · intro h
    obtain ⟨x, h1, _, h2, h3, h4⟩ := C86_round_trip_partial F hd hp hi hs
    obtain ⟨y, h1', _, h2', h3', h4'⟩ := C86_round_trip_partial F hd' hp' hi' hs'
    rw [h, h1'] at h1
    cases h1
    have inj : Function.Injective (List.map (JV.num (α := Char))) :=
      List.map_injective_iff.2 (fun a b h => by cases h; rfl)
    refine ⟨fun l => (h2 l).symm.trans (h2' l), ?_, ?_⟩
    · intro l m v
      constructor
      · intro hv
        obtain ⟨w, hw, e⟩ := (h3' l m (v.map .num)).1 ((h3 l m _).2 ⟨v, hv, rfl⟩)
        rwa [inj e]
      · intro hv
        obtain ⟨w, hw, e⟩ := (h3 l m (v.map .num)).1 ((h3' l m _).2 ⟨v, hv, rfl⟩)
        rwa [inj e]
    · intro p
      rw [← h4 p, h4' p]
  · rintro ⟨h1, h2, h3⟩
    rw [output_text_eq F hd hp hd' hp']
    cases hp with
    | obj hn _ =>
      cases hp' with
      | obj hn' _ =>
        unfold outputData
        apply lookAt_obj_congr
        intro k
        rw [output_get hn hi hs, output_get hn' hi' hs']
        by_cases hk : k = kItems
        · rw [if_pos hk, if_pos hk]
          exact Or.inr ⟨_, _, rfl, rfl, same_items h1 h2⟩
        · rw [if_neg hk, if_neg hk]
          exact same_obj h3 k

/-- C86: writing a dataset that was loaded from a written file gives the same file again.  Partial as
above. -/
theorem C86_stable_partial (F : Floats) {d d' : DS (List ℤ)} {r : DS (List JVal)} (hd : IsDict2 d.items)
    (hp : PyJson F (.obj d.properties)) (hi : dictGet d.properties kItems = none)
    (hs : ∀ v, dictGet d.properties kSegType = some v → v = .str kLinear)
    (hr : inputJsonText F (outputJsonText d) = .ok r) (hd' : IsDict2 d'.items)
    (hp' : PyJson F (.obj d'.properties)) (h1 : d'.properties = r.properties)
    (h2 : ∀ l, HasItem d'.items l ↔ HasItem r.items l)
    (h3 : ∀ l m t, Has r.items l m t ↔ ∃ v, Has d'.items l m v ∧ t = v.map .num) :
    outputJsonText d' = outputJsonText d := by
  obtain ⟨x, e1, _, e2, e3, e4⟩ := C86_round_trip_partial F hd hp hi hs
  rw [hr] at e1
  cases e1
  have inj : Function.Injective (List.map (JV.num (α := Char))) :=
    List.map_injective_iff.2 (fun a b h => by cases h; rfl)
  have key : ∀ k, (dictGet d'.properties k = none ∧
      dictGet (dictSet d.properties kSegType (.str kLinear)) k = none) ∨
      ∃ v w, dictGet d'.properties k = some v ∧
        dictGet (dictSet d.properties kSegType (.str kLinear)) k = some w ∧ SameJson v w := by
    rw [h1]
    exact same_obj e4
  have hi' : dictGet d'.properties kItems = none := by
    rcases key kItems with h | ⟨v, w, h, h', _⟩
    · exact h.1
    · rw [dictGet_set, if_neg (by decide), hi] at h'
      cases h'
  have hs' : dictGet d'.properties kSegType = some (.str kLinear) := by
    rcases key kSegType with h | ⟨v, w, h, h', hw⟩
    · rw [dictGet_set, if_pos rfl] at h
      cases h.2
    · rw [dictGet_set, if_pos rfl] at h'
      cases h'
      have := same_shape hw
      rw [h]
      cases v <;> cases this
      rfl
  refine (C86_same_partial F hd' hp' hi' (fun v hv => ?_) hd hp hi hs).2 ⟨?_, ?_, ?_⟩
  · rw [hs'] at hv
    exact (Option.some.inj hv).symm
  · exact fun l => (h2 l).trans (e2 l)
  · intro l m v
    constructor
    · intro hv
      obtain ⟨w, hw, e⟩ := (e3 l m (v.map .num)).1 ((h3 l m _).2 ⟨v, hv, rfl⟩)
      rwa [inj e]
    · intro hv
      obtain ⟨w, hw, e⟩ := (h3 l m (v.map .num)).1 ((e3 l m _).2 ⟨v, hv, rfl⟩)
      rwa [inj e]
  · apply lookAt_obj_congr
    intro k
    rw [dictGet_set]
    by_cases hk : k = kSegType
    · rw [if_pos hk, hk, dictGet_set, if_pos rfl]
      exact Or.inr ⟨_, _, rfl, rfl, same_refl _⟩
    · rw [if_neg hk]
      exact key k

/-- C86 refuted without the condition: a property called `items` hides the items, so that datasets with
different codings give the same file. -/
theorem C86_refuted : ∃ d d' : DS (List ℤ), outputJsonText d = outputJsonText d' ∧
    Has d.items nX nM [2, 3] ∧ ¬ Has d'.items nX nM [2, 3] := by
  refine ⟨exProps [(kItems, .obj [])], { exProps [(kItems, .obj [])] with items := [] }, by decide +kernel,
    ⟨_, rfl, rfl⟩, ?_⟩
  rintro ⟨cs, h, _⟩
  cases h

/-- A dataset with a name beyond ASCII and a nested property; the text it is written as. -/
example : ∃ d, d = exProps [(['é'], .obj [(nN, .null), (nM, .arr [.float ['1', '.', '5']])])] ∧
    IsDict2 d.items ∧ PyJson exFloats (.obj d.properties) ∧ dictGet d.properties kItems = none ∧
    dictGet d.properties kSegType = none ∧
    (outputJsonText (exProps [(['é'], .null)]) =
      "{\n    \"items\": {\n        \"x\": {\n            \"m\": [\n                2,\n                3\n            ]\n        }\n    },\n    \"segmentation_type\": \"linear\",\n    \"\\u00e9\": null\n}".toList) := by
  refine ⟨_, rfl, ⟨by decide, by decide⟩, ?_, rfl, rfl, by decide +kernel⟩
  refine .obj (by decide) (.cons (.obj (by decide) (.cons .null (.cons (.arr (.cons (.float ?_) .nil)) .nil))) .nil)
  refine Or.inl ⟨⟨[], 1, ['.', '5'], [], by decide, Or.inl rfl, Or.inr ⟨['5'], rfl, by decide, by decide⟩,
    Or.inl rfl, Or.inl (by decide)⟩, rfl⟩

end SegEval.Props
