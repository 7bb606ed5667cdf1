import Verif.Props.SaveLoad
import Verif.Props.FolderText

/-!
# C121: the two file formats
-/

namespace SegEval.Props

open SegEval Spec

/-- The entries of a JSON document that holds one item with the codings of a table. -/
structure HoldsTable (entries : List (Name × JVal)) (item : Name) (table : List (Name × List ℤ)) : Prop where
  linear : dictGet entries kSegType = some (.str kLinear)
  codings : ∃ cs, dictGet entries kItems = some (.obj [(item, .obj cs)]) ∧ (cs.map Prod.fst).Nodup ∧
    ∀ m v, dictGet cs m = some v ↔ ∃ masses : List ℤ, LastOf table m masses ∧ v = .arr (masses.map .num)

theorem inputTsvText_attributes {u : Unicode} {delim : Char} {path text : Name} {d : DS (List ℤ)}
    (h : inputTsvText u delim path text = .ok d) :
    d.coders = ∅ ∧ d.boundaryTypes = {1} ∧ d.boundaryFormat = .mass := by
  unfold inputTsvText at h
  split at h
  · cases h
  · rename_i d' hd
    split at h
    · cases h
    · cases h
      unfold inputTsv at hd
      split at hd
      · cases hd
      · cases hd
        exact ⟨rfl, rfl, rfl⟩

/-- C121: a table of codings in a TSV file, and a JSON document that holds the same codings in an item named
as the TSV file, load as datasets with the same item and codings, and with the same coders, types and
format; so all scores are the same. -/
theorem C121_same (u : Unicode) (F : Floats) {delim : Char} (hd : Delimiter delim) (path : Name)
    {header : List Name} {rows : List (List Name)} {table : List (Name × List ℤ)} {text jtext : Name}
    {entries : List (Name × JVal)} (h : WrittenTable delim (header :: rows) text)
    (ht : List.Forall₂ (fun row e => ∃ cells, row = e.1 :: cells ∧ List.Forall₂ (IntText u) cells e.2)
      rows table)
    (hj : JDoc F jtext (.obj entries)) (he : HoldsTable entries (nameFromFilepath path) table) :
    ∃ x y, inputTsvText u delim path text = .ok x ∧ inputJsonText F jtext = .ok (asLoaded y) ∧
      (∀ l, HasItem y.items l ↔ HasItem x.items l) ∧
      (∀ l m v, Has y.items l m v ↔ Has x.items l m v) ∧
      y.coders = x.coders ∧ y.boundaryTypes = x.boundaryTypes ∧ y.boundaryFormat = x.boundaryFormat ∧
      ((∀ e ∈ table, e.2 ≠ [] ∧ ∀ n ∈ e.2, 0 < n) →
        ((∀ e ∈ table, ',' ∉ e.1) → SamePairs (asDataset x) (asDataset y)) ∧
        SameAgreement (.dict (asDataset x).items) (.dict (asDataset y).items)) := by
  obtain ⟨x, hx, hxi, hxh⟩ := C81_content u hd path h ht
  obtain ⟨cs, hcs, hnd, hget⟩ := he.codings
  have hload : Loadable entries := by
    refine ⟨he.linear, _, hcs, ?_⟩
    intro e hmem
    rw [List.mem_singleton] at hmem
    subst hmem
    refine ⟨cs, rfl, fun c hc => ?_⟩
    obtain ⟨masses, -, hv⟩ := (hget c.1 c.2).1 (dictGet_of_mem hnd hc)
    rw [hv]
    exact ⟨_, .arr _⟩
  obtain ⟨r, hr⟩ := (C85_paired_loads F jtext).2 ⟨entries, hj, hload⟩
  obtain ⟨entries', its, hj', hits, hdict, -, hri, hrh⟩ := C85_paired_holds hr
  have hee : entries' = entries := by
    have := C85_paired_unique hj' hj
    cases this; rfl
  subst hee
  rw [hcs] at hits
  cases hits
  have hhas : ∀ l m t, Has r.items l m t ↔
      l = nameFromFilepath path ∧ ∃ masses : List ℤ, LastOf table m masses ∧ t = masses.map .num := by
    intro l m t
    rw [hrh]
    constructor
    · rintro ⟨cs', v, h1, h2, h3⟩
      by_cases hl : nameFromFilepath path = l
      · rw [dictGet, if_pos hl] at h1
        cases h1
        obtain ⟨masses, hm, rfl⟩ := (hget m v).1 h2
        cases h3
        exact ⟨hl.symm, masses, hm, rfl⟩
      · rw [dictGet, if_neg hl] at h1
        cases h1
    · rintro ⟨rfl, masses, hm, rfl⟩
      exact ⟨cs, _, by simp [dictGet], (hget _ _).2 ⟨masses, hm, rfl⟩, .arr _⟩
  obtain ⟨a1, a2, a3⟩ := C85_attributes hr
  obtain ⟨y, rfl⟩ := exists_asLoaded hdict (fun l m t hh => by
    obtain ⟨-, masses, -, e⟩ := (hhas l m t).1 hh
    exact ⟨masses, e⟩)
  have hy := asLoaded_dict.1 hdict
  have hitem : ∀ l, HasItem y.items l ↔ HasItem x.items l := by
    intro l
    rw [← hasItem_asLoaded, hri, hxi]
    by_cases hl : nameFromFilepath path = l
    · simp [dictGet, hl]
    · simp [dictGet, hl, Ne.symm hl]
  have hcod : ∀ l m v, Has y.items l m v ↔ Has x.items l m v := by
    intro l m v
    have := hhas l m (v.map .num)
    rw [has_asLoaded] at this
    rw [hxh]
    constructor
    · intro hh
      obtain ⟨h1, masses, hm, e⟩ := this.1 ⟨v, hh, rfl⟩
      rw [nums_inj e]
      exact ⟨h1, hm⟩
    · rintro ⟨h1, hm⟩
      obtain ⟨w, hw, e⟩ := this.2 ⟨h1, v, hm, rfl⟩
      rwa [nums_inj e]
  obtain ⟨b1, b2, b3⟩ := inputTsvText_attributes hx
  have hxd := inputTsvText_dict hx
  refine ⟨x, y, hx, hr, hitem, hcod, by rw [b1]; exact a1, by rw [b2]; exact a2, by rw [b3]; exact a3, ?_⟩
  intro hpos
  have hp : PositiveMasses x := by
    intro label m v hh
    obtain ⟨-, before, after, e, -⟩ := (hxh label m v).1 hh
    exact hpos (m, v) (by rw [e]; simp)
  have hr' : Rearranged (asDataset x).items (asDataset y).items :=
    asDataset_rearranged hxd hy (fun l => (hitem l).symm) (fun l m v => (hcod l m v).symm)
  refine ⟨fun hcomma => samePairs hxd hp ?_ ?_ b3 a3 hr',
    sameAgreement (.dict _ _ hr') (asDataset_dict hxd) rfl (positive_valid hp)⟩
  · intro label m v hh
    obtain ⟨-, before, after, e, -⟩ := (hxh label m v).1 hh
    exact hcomma (m, v) (by rw [e]; simp)
  · intro e
    have := (hxi (nameFromFilepath path)).2 rfl
    rw [e] at this
    obtain ⟨_, hh⟩ := this
    cases hh

/-- The codings of the TSV file `exText` as a JSON file. -/
def exTwin : Name :=
  "{\"segmentation_type\": \"linear\", \"items\": {\"talk\": {\"n\": [5], \"m \\\"\\t1\": [2, 3]}}}".toList

/-- What it says. -/
def exTwinEntries : List (Name × JVal) :=
  [(kSegType, .str kLinear), (kItems, .obj [("talk".toList,
    .obj [(nN, .arr [.num 5]), ("m \"\t1".toList, .arr [.num 2, .num 3])])])]

/-- Whether a value is that. -/
def isTwin : JVal → Bool
  | .obj [(a, .str b), (c, .obj [(d, .obj [(e, .arr [.num f]), (g, .arr [.num h, .num i])])])] =>
    decide (a = kSegType ∧ b = kLinear ∧ c = kItems ∧ d = "talk".toList ∧ e = nN ∧ f = 5 ∧
      g = "m \"\t1".toList ∧ h = 2 ∧ i = 3)
  | _ => false

theorem isTwin_eq {v : JVal} (h : isTwin v = true) : v = .obj exTwinEntries := by
  unfold isTwin at h
  split at h
  · obtain ⟨rfl, rfl, rfl, rfl, rfl, rfl, rfl, rfl, rfl⟩ := of_decide_eq_true h
    rfl
  · cases h

/-- The two files meet the hypotheses (for those about `exText` see C81). -/
example : JDoc exFloats exTwin (.obj exTwinEntries) ∧
    HoldsTable exTwinEntries (nameFromFilepath exPath) [("m \"\t1".toList, [2, 3]), (nN, [5])] := by
  refine ⟨?_, ⟨by simp [exTwinEntries, dictGet],
    [(nN, .arr [.num 5]), ("m \"\t1".toList, .arr [.num 2, .num 3])], ?_, ?_, ?_⟩⟩
  · have h : ((parseJson exFloats exTwin).toOption.map isTwin) = some true := by decide +kernel
    cases hp : parseJson exFloats exTwin with
    | error e => rw [hp] at h; cases h
    | ok v =>
      rw [hp] at h
      rw [← isTwin_eq (Option.some.inj h)]
      exact (parseJson_iff _ _ _).1 hp
  · rw [show nameFromFilepath exPath = "talk".toList by decide +kernel]
    have : kSegType ≠ kItems := by decide +kernel
    simp only [exTwinEntries, dictGet, if_neg this, if_true]
  · decide +kernel
  · intro m v
    have hne : nN ≠ "m \"\t1".toList := by decide +kernel
    refine Iff.trans ⟨dictGet_mem, dictGet_of_mem (by decide +kernel)⟩ ?_
    constructor
    · intro h
      rcases List.mem_cons.1 h with h | h
      · cases h
        exact ⟨[5], ⟨[("m \"\t1".toList, [2, 3])], [], rfl, by simp⟩, rfl⟩
      · cases List.mem_singleton.1 h
        exact ⟨[2, 3], ⟨[], [(nN, [5])], rfl, by simpa using hne⟩, rfl⟩
    · rintro ⟨masses, ⟨before, after, e, -⟩, rfl⟩
      have hm : (m, masses) ∈ [("m \"\t1".toList, [2, 3]), (nN, [5])] := by rw [e]; simp
      rcases List.mem_cons.1 hm with h | h
      · cases h; simp
      · cases List.mem_singleton.1 h; simp

/-- docs/data_specification/data-specification.tex: the TSV file. -/
def exFigureTsv : Name := "Coder\tMasses\nA\t2\t3\t6\nB\t1\t1\t3\t6\nC\t2\t3\t2\t4\n".toList

/-- docs/data_specification/data-specification.tex: the JSON file, with `sep` after the segmentation type. -/
def exFigure (sep : Name) : Name :=
  "{\n\t\"segmentation_type\" : \"linear\"".toList ++ sep ++
  "\n\t\"items\" :\n\t{\n\t\t\"Kubla Khan\" : {\n\t\t\t\"A\" : [2,3,6],\n\t\t\t\"B\" : [1,1,3,6],\n".toList ++
  "\t\t\t\"C\" : [2,3,2,4]\n\t\t}\n\t}\n}\n".toList

/-- What both should hold. -/
def exFigureItems : List (Name × List (Name × List ℤ)) :=
  [("Kubla Khan".toList, [(['A'], [2, 3, 6]), (['B'], [1, 1, 3, 6]), (['C'], [2, 3, 2, 4])])]

/-- The same files as in the data specification (docs/data_specification): the JSON file as it is printed there
lacks a comma and does not load; with the comma it does. -/
theorem C121_figure :
    inputJsonText exFloats (exFigure []) = .error .dataIOError ∧
    (inputTsvText asciiOnly '\t' "Kubla Khan.tsv".toList exFigureTsv).toOption.map DS.items = some exFigureItems ∧
    (inputJsonText exFloats (exFigure [','])).toOption.map (fun d =>
      d.items.map (fun it => (it.1, it.2.map (fun c => (c.1, c.2.map (dumpJson 0)))))) =
      some (exFigureItems.map (fun it => (it.1, it.2.map (fun c => (c.1, c.2.map decimal))))) := by
  refine ⟨C85_paired_malformed ?_ (not_doc (by decide +kernel)), by decide +kernel, by decide +kernel⟩
  rintro ⟨before, w, after, n, e, _⟩
  have hm : '\\' ∈ exFigure [] := by rw [e]; simp
  revert hm
  decide +kernel

end SegEval.Props
