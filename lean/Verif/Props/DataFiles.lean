import Verif.Lemmas.DataTsv
import Verif.Props.Data

/-!
# C55–C57: JSON and TSV files
-/

namespace SegEval.Props

open SegEval Spec

/-! ## C55 -/

/-- C55: what `output_linear_mass_json` writes is read back with the same items, codings and
properties plus the segmentation type.  Partial: no property may be called `items`, and one called
`segmentation_type` must be `'linear'`; see `C55_refuted` and `C55_other_type`. -/
theorem C55_partial (d : DS (List ℤ)) (hd : IsDict2 d.items)
    (hp : (d.properties.map Prod.fst).Nodup) (hi : dictGet d.properties kItems = none)
    (hs : ∀ v, dictGet d.properties kSegType = some v → v = .str kLinear) :
    ∃ d', inputJson (some (outputJson d)) = .ok d' ∧ IsDict2 d'.items ∧
      (∀ l, HasItem d'.items l ↔ HasItem d.items l) ∧
      (∀ l m t, Has d'.items l m t ↔ ∃ v, Has d.items l m v ∧ t = v.map .num) ∧
      SameJson (.obj d'.properties) (.obj (dictSet d.properties kSegType (.str kLinear))) := by
  obtain ⟨d', h1, h2, h3, h4, h5, _⟩ := json_round_trip d hd hp hi hs
  exact ⟨d', h1, h2, h3, h4, h5⟩

/-- C55 refuted: with a property `segmentation_type` other than `'linear'`, the file cannot be read
back, whatever the items. -/
theorem C55_other_type (d : DS (List ℤ)) (hp : (d.properties.map Prod.fst).Nodup) {v : JVal}
    (hv : dictGet d.properties kSegType = some v) (hne : v ≠ .str kLinear) :
    inputJson (some (outputJson d)) = .error .dataIOError := by
  have hL : outputJson d = .obj (sortEntries
      (dictUpdate (dictSet [(kSegType, .str kLinear)] kItems (itemsToJson d.items)) d.properties)) := by
    unfold outputJson outputData
    rw [sortKeys]
  rw [hL]
  apply (inputJson_obj _).1
  rintro ⟨h, _⟩
  rw [sortEntries_get, dictUpdate_get _ _ hp, hv] at h
  simp only [Option.some_or, Option.map_some, Option.some.injEq] at h
  apply hne
  cases v <;> simp_all [sortKeys]

/-- A dataset with one coding and the given properties. -/
def exProps (properties : List (Name × JVal)) : DS (List ℤ) :=
  { items := [(nX, [(nM, [2, 3])])], coders := {nM}, properties := properties }

/-- C55 refuted: a property called `items` replaces the items, so nothing of the dataset is left. -/
theorem C55_refuted :
    (∃ d', inputJson (some (outputJson (exProps [(kItems, .obj [])]))) = .ok d' ∧ d'.items = []) ∧
    inputJson (some (outputJson (exProps [(kItems, .num 1)]))) = .error .attributeError := by
  refine ⟨⟨_, rfl, rfl⟩, rfl⟩

/-- A dataset with a nested property, and one that was itself read from a file. -/
example : ∃ d, d = exProps [(nY, .obj [(nN, .null), (nM, .arr [.obj []])]), (kSegType, .str kLinear)] ∧
    IsDict2 d.items ∧ (d.properties.map Prod.fst).Nodup ∧ dictGet d.properties kItems = none ∧
    ∀ v, dictGet d.properties kSegType = some v → v = .str kLinear := by
  refine ⟨_, rfl, ⟨by decide, by decide⟩, by decide, rfl, ?_⟩
  intro v hv
  exact (Option.some.inj hv).symm

/-! ## C56 -/

/-- C56: for a document that is an object, DataIOError is raised exactly if its type is missing or
not linear or it lacks items.  Partial: other documents may raise TypeError, see `C56_refuted`. -/
theorem C56_object_partial (entries : List (Name × JVal)) :
    inputJson (some (.obj entries)) = .error .dataIOError ↔ ¬ Linear entries := by
  constructor
  · intro h hl
    exact (inputJson_obj entries).2 hl h
  · exact (inputJson_obj entries).1

/-- C56: no other document is ever loaded. -/
theorem C56_loaded {doc : Option JVal} {d : DS (List JVal)} (h : inputJson doc = .ok d) :
    ∃ entries, doc = some (.obj entries) ∧ Linear entries := by
  match doc, h with
  | some (.obj entries), h =>
    refine ⟨entries, rfl, ?_⟩
    by_contra hn
    rw [(inputJson_obj entries).1 hn] at h
    cases h
  | none, h => cases h
  | some .null, h => cases h
  | some (.bool b), h => cases h
  | some (.num n), h => cases h
  | some (.float r), h => cases h
  | some (.str s), h =>
    exfalso
    unfold inputJson at h
    simp only [jsonContains, jsonIndex] at h
    split at h
    · cases h
    · cases h
    · cases h
  | some (.arr l), h =>
    exfalso
    unfold inputJson at h
    simp only [jsonContains, jsonIndex] at h
    split at h
    · cases h
    · cases h
    · cases h

/-- C56 refuted: the document `null` raises TypeError, and so does the string
`"segmentation_type"`. -/
theorem C56_refuted : inputJson (some .null) = .error .typeError ∧
    inputJson (some (.str kSegType)) = .error .typeError :=
  ⟨rfl, rfl⟩

/-- A linear document that loads, and one without items. -/
example : Linear [(kSegType, .str kLinear), (kItems, .obj [(nX, .obj [])])] ∧
    (∃ d, inputJson (some (.obj [(kSegType, .str kLinear), (kItems, .obj [(nX, .obj [])])])) = .ok d) ∧
    ¬ Linear [(kSegType, .str kLinear)] := by
  refine ⟨⟨rfl, _, rfl⟩, ⟨_, rfl⟩, ?_⟩
  rintro ⟨_, v, h⟩
  cases h

/-! ## C57 -/

/-- C57: the file loads exactly if no data row is blank and all columns after the first are
integers; then there is one item, whose coding for a coder holds the integers of the last row that
starts with the coder.  Partial: a blank row (such as a blank last line) raises, see `C57_refuted`. -/
theorem C57_partial (parse : Name → Option ℤ) (item : Name) (rows : List (List Name)) :
    ((∃ d, inputTsv parse item rows = .ok d) ↔
      ∀ row ∈ rows.drop 1, row ≠ [] ∧ ∀ col ∈ row.drop 1, ∃ n, parse col = some n) ∧
    ∀ d, inputTsv parse item rows = .ok d →
      (∀ l, HasItem d.items l ↔ l = item) ∧
      ∀ l m v, Has d.items l m v ↔ l = item ∧
        ∃ row, lastRow (rows.drop 1) m = some row ∧ (row.drop 1).map parse = v.map some := by
  have hrow : ∀ row, RowOk parse row ↔ row ≠ [] ∧ ∀ col ∈ row.drop 1, ∃ n, parse col = some n := by
    intro row
    unfold RowOk
    simp only [Option.ne_none_iff_exists']
  have h := tsvRows parse (rows.drop 1) []
  unfold inputTsv
  revert h
  cases forLoop (rows.drop 1) [] (tsvRow parse) with
  | error e =>
    rintro ⟨_, row, h1, h2⟩
    refine ⟨⟨fun ⟨d, hd⟩ => (nomatch hd), fun h => ?_⟩, fun d hd => (nomatch hd)⟩
    exact absurd ((hrow row).2 (h row h1)) h2
  | ok out =>
    rintro ⟨h1, h2, h3⟩
    refine ⟨⟨fun _ row hr => (hrow row).1 (h1 row hr), fun _ => ⟨_, rfl⟩⟩, ?_⟩
    rintro d hd
    cases hd
    unfold HasItem Has DS.setItem
    simp only [dictSet, dictGet]
    refine ⟨?_, ?_⟩
    · intro l
      by_cases hl : item = l
      · simp [hl]
      · simp [hl, Ne.symm hl]
    · intro l m v
      by_cases hl : item = l
      · subst hl
        simp only [if_true, Option.some.injEq, exists_eq_left', true_and]
        rw [h3]
        simp [dictGet]
      · simp [hl, Ne.symm hl]

/-- C57: a file that does not load raises KeyError for a blank row or ValueError for a column that
is not an integer. -/
theorem C57_errors {parse : Name → Option ℤ} {item : Name} {rows : List (List Name)} {e : PyErr}
    (h : inputTsv parse item rows = .error e) :
    (e = .keyError ∧ [] ∈ rows.drop 1) ∨ e = .valueError := by
  have ht := tsvRows parse (rows.drop 1) []
  unfold inputTsv at h
  revert h ht
  cases forLoop (rows.drop 1) [] (tsvRow parse) with
  | error e' =>
    rintro h ⟨h1, _⟩
    cases h
    exact h1
  | ok out => intro h; cases h

/-- C57 refuted: a blank row raises KeyError, whatever the other rows. -/
theorem C57_refuted : inputTsv (fun _ => some 1) nX [[nX, nX], [nM, nY], []] = .error .keyError := by
  rfl

/-- Rows of two coders, one of them twice: the later row counts. -/
example : ∃ d, inputTsv (fun c => if c = ['1'] then some 1 else if c = ['2'] then some 2 else none) nX
    [[['h'], ['h']], [nM, ['1'], ['2']], [nN, ['2']], [nM, ['2'], ['2']]] = .ok d ∧
    d.items = [(nX, [(nM, [2, 2]), (nN, [2])])] := by
  refine ⟨_, rfl, ?_⟩
  decide

end SegEval.Props
