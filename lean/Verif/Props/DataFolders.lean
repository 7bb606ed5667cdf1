import Verif.Lemmas.DataFolders
import Verif.Props.DataFiles

/-!
# C58: folders
-/

namespace SegEval.Props

open SegEval Spec

variable {V : Type _}

/-- C58: what is loaded is exactly the codings of the dataset given and of all matching files, with
items prefixed by their folder path, and the coders are those of the codings.  Partial: no folder has
two matching files that differ only in their extension, see `C58_refuted`. -/
theorem C58_content_partial {accept : Name → Bool} {prepend : List Name} {entries : List (Entry V)}
    {d0 d : DS V} (hd0 : IsDict2 d0.items) (hc : NoStemClash accept entries)
    (hd : ∀ path name ds, FileIn entries path name (.ok ds) → Matches accept name → IsDict2 ds.items)
    (h : loadNested accept prepend entries d0 = .ok d) :
    (∀ label m v, Has d.items label m v ↔ Has d0.items label m v ∨
      ∃ path name item, CodingIn accept prepend entries label m v path name item) ∧
    (∀ m, m ∈ d.coders ↔ m ∈ d0.coders ∨
      ∃ label v path name item, CodingIn accept prepend entries label m v path name item) ∧
    (∀ path name r, FileIn entries path name r → Matches accept name → ∃ ds, r = .ok ds) ∧
    d.properties = d0.properties := by
  rw [loadNested_eq accept prepend entries hc] at h
  have ho := loadAll_outcome (allFiles accept prepend entries) d0 hd0
  rw [h] at ho
  obtain ⟨h1, h2, _⟩ := ho
  have hmem : ∀ label m v, ((label, m), v) ∈ fileCodings (allFiles accept prepend entries) ↔
      ∃ path name item, CodingIn accept prepend entries label m v path name item := by
    intro label m v
    rw [mem_fileCodings]
    · constructor
      · rintro ⟨p, ds, item, hp, hh, rfl⟩
        obtain ⟨path, name, rfl, hf, hm⟩ := mem_allFiles.1 hp
        exact ⟨path, name, item, ds, hf, hm, hh, rfl⟩
      · rintro ⟨path, name, item, ds, hf, hm, hh, rfl⟩
        exact ⟨_, ds, item, mem_allFiles.2 ⟨path, name, rfl, hf, hm⟩, hh, rfl⟩
    · intro p ds hp
      obtain ⟨path, name, rfl, hf, hm⟩ := mem_allFiles.1 hp
      exact hd path name ds hf hm
  refine ⟨?_, ?_, ?_, h2.properties⟩
  · intro label m v
    rw [h2.has hd0, hmem]
  · intro m
    rw [h2.coders]
    simp only [List.not_mem_nil, or_false]
    refine or_congr Iff.rfl ?_
    rw [List.mem_map]
    constructor
    · rintro ⟨⟨⟨label, m'⟩, v⟩, hx, rfl⟩
      exact ⟨label, v, (hmem _ _ _).1 hx⟩
    · rintro ⟨label, v, hx⟩
      exact ⟨_, (hmem _ _ _).2 hx, rfl⟩
  · intro path name r hf hm
    exact h1 _ (mem_allFiles.2 ⟨path, name, rfl, hf, hm⟩)

/-- C58: the items are those of the dataset given and of all matching files, also items without codings;
the boundary format and types are those of the dataset given.  Partial as above. -/
theorem C58_items_partial {accept : Name → Bool} {prepend : List Name} {entries : List (Entry V)}
    {d0 d : DS V} (hd0 : IsDict2 d0.items) (hc : NoStemClash accept entries)
    (h : loadNested accept prepend entries d0 = .ok d) :
    IsDict2 d.items ∧ d.boundaryFormat = d0.boundaryFormat ∧ d.boundaryTypes = d0.boundaryTypes ∧
    ∀ label, HasItem d.items label ↔ HasItem d0.items label ∨
      ∃ path name ds item, FileIn entries path name (.ok ds) ∧ Matches accept name ∧
        HasItem ds.items item ∧ label = joinComma (prepend ++ path ++ [item]) := by
  rw [loadNested_eq accept prepend entries hc] at h
  have ho := loadAll_outcome (allFiles accept prepend entries) d0 hd0
  rw [h] at ho
  refine ⟨ho.2.1.dict, ho.2.1.format, ho.2.1.types, ?_⟩
  intro label
  rw [loadAll_items _ _ h]
  refine or_congr Iff.rfl ?_
  constructor
  · rintro ⟨p, ds, item, h1, h2, h3⟩
    obtain ⟨path, name, rfl, hf, hm⟩ := mem_allFiles.1 h1
    exact ⟨path, name, ds, item, hf, hm, h2, h3⟩
  · rintro ⟨path, name, ds, item, hf, hm, h2, h3⟩
    exact ⟨_, ds, item, mem_allFiles.2 ⟨path, name, rfl, hf, hm⟩, h2, h3⟩

/-- C58: loading from scratch succeeds when all matching files load and no two of their codings get
the same label and coder. -/
theorem C58_success_partial {accept : Name → Bool} {prepend : List Name} {entries : List (Entry V)}
    (hc : NoStemClash accept entries) (hn : NamesDistinct entries)
    (hd : ∀ path name ds, FileIn entries path name (.ok ds) → Matches accept name → IsDict2 ds.items)
    (hl : ∀ path name r, FileIn entries path name r → Matches accept name → ∃ ds, r = .ok ds)
    (hu : ∀ label m v v' p n i p' n' i', CodingIn accept prepend entries label m v p n i →
      CodingIn accept prepend entries label m v' p' n' i' → p = p' ∧ n = n' ∧ i = i') :
    ∃ d, loadNested accept prepend entries {} = .ok d := by
  rw [loadNested_eq accept prepend entries hc]
  have ho := loadAll_outcome (allFiles accept prepend entries) ({} : DS V) ⟨by simp, by simp⟩
  revert ho
  cases loadAll (allFiles accept prepend entries) ({} : DS V) with
  | ok d => intro _; exact ⟨d, rfl⟩
  | error e =>
    rintro (⟨x, hx, he⟩ | ⟨_, h⟩)
    · obtain ⟨path, name, _, hf, hm⟩ := mem_allFiles.1 (show (x.1, x.2) ∈ _ from hx)
      obtain ⟨ds, h⟩ := hl path name _ hf hm
      rw [h] at he
      cases he
    · exact absurd (fileCodings_nodup hn hd hu) h

/-- C58: a failure is that of a matching file, or DataIOError. -/
theorem C58_failure_partial {accept : Name → Bool} {prepend : List Name} {entries : List (Entry V)}
    {d0 : DS V} (hd0 : IsDict2 d0.items) (hc : NoStemClash accept entries) {e : PyErr}
    (h : loadNested accept prepend entries d0 = .error e) :
    (∃ path name, FileIn entries path name (.error e) ∧ Matches accept name) ∨ e = .dataIOError := by
  rw [loadNested_eq accept prepend entries hc] at h
  have ho := loadAll_outcome (allFiles accept prepend entries) d0 hd0
  rw [h] at ho
  rcases ho with ⟨x, hx, he⟩ | ⟨h, _⟩
  · obtain ⟨path, name, _, hf, hm⟩ := mem_allFiles.1 (show (x.1, x.2) ∈ _ from hx)
    rw [he] at hf
    exact Or.inl ⟨path, name, hf, hm⟩
  · exact Or.inr h

/-- C58: the order in which entries are listed, at any depth, does not matter. -/
theorem C58_order_partial {accept : Name → Bool} {prepend : List Name} {entries entries' : List (Entry V)}
    {d0 d : DS V} (hd0 : IsDict2 d0.items) (hc : NoStemClash accept entries)
    (hs : Shuffle entries entries') (h : loadNested accept prepend entries d0 = .ok d) :
    ∃ d', loadNested accept prepend entries' d0 = .ok d' ∧ d'.coders = d.coders ∧
      (∀ label, HasItem d'.items label ↔ HasItem d.items label) ∧
      ∀ label m v, Has d'.items label m v ↔ Has d.items label m v := by
  rw [loadNested_eq accept prepend entries hc] at h
  rw [loadNested_eq accept prepend entries' (shuffle_noStemClash hs hc)]
  have ho := loadAll_outcome (allFiles accept prepend entries) d0 hd0
  have ho' := loadAll_outcome (allFiles accept prepend entries') d0 hd0
  rw [h] at ho
  obtain ⟨h1, h2, h3⟩ := ho
  have hp := shuffle_all (accept := accept) hs prepend
  have hpc : (fileCodings (allFiles accept prepend entries)).Perm
      (fileCodings (allFiles accept prepend entries')) := hp.flatMap_right _
  revert ho'
  cases h' : loadAll (allFiles accept prepend entries') d0 with
  | error e =>
    rintro (⟨x, hx, he⟩ | ⟨_, hn⟩)
    · obtain ⟨ds, hds⟩ := h1 x (hp.mem_iff.2 hx)
      rw [hds] at he
      cases he
    · exact absurd (((hpc.append_left _).map _).nodup_iff.1 h3) hn
  | ok d' =>
    rintro ⟨_, a2, _⟩
    refine ⟨d', rfl, ?_, ?_, ?_⟩
    · ext m
      rw [a2.coders, h2.coders, (hpc.map _).mem_iff]
    · intro label
      rw [loadAll_items _ _ h', loadAll_items _ _ h]
      simp only [hp.mem_iff]
    · intro label m v
      rw [a2.has hd0, h2.has hd0, hpc.mem_iff]

/-- The extension test for TSV files (data/__init__.py:20, :172). -/
def tsvExt (ext : Name) : Bool := decide (ext = ['.', 't', 's', 'v'] ∨ ext = ['.', 'c', 's', 'v'])

/-- A folder with `a.tsv` and `a.csv`, each with one coding. -/
def exStem : List (Entry (List ℤ)) :=
  [.file ['a', '.', 't', 's', 'v'] (.ok { items := [(['a'], [(nM, [2, 3])])] }),
   .file ['a', '.', 'c', 's', 'v'] (.ok { items := [(['a'], [(nN, [5])])] })]

/-- C58 refuted: of two files that differ only in their extension only the one listed last is loaded,
so codings are lost and the result depends on the listing order. -/
theorem C58_refuted :
    (∃ d, loadNested tsvExt [] exStem {} = .ok d ∧ d.items = [(['a'], [(nN, [5])])]) ∧
    ∃ d, loadNested tsvExt [] exStem.reverse {} = .ok d ∧ d.items = [(['a'], [(nM, [2, 3])])] := by
  have key : ∀ (r : Py (DS (List ℤ))) (l : List (Name × List (Name × List ℤ))), l ≠ [] →
      (r.toOption.getD {}).items = l → ∃ d, r = .ok d ∧ d.items = l := by
    intro r l hl h
    cases r with
    | ok d => exact ⟨d, rfl, h⟩
    | error e => exact absurd h.symm hl
  exact ⟨key _ _ (by simp) (by decide +kernel), key _ _ (by simp) (by decide +kernel)⟩

/-- Two folders with a file of the same name, and a file that is ignored. -/
def exTree : List (Entry (List ℤ)) :=
  [.dir nX [.file ['a', '.', 't', 's', 'v'] (.ok { items := [(['a'], [(nM, [2, 3])])] })],
   .file ['b', '.', 't', 'x', 't'] (.error .dataIOError),
   .dir nY [.file ['a', '.', 'c', 's', 'v'] (.ok { items := [(['a'], [(nM, [5])])] }), .dir nX []]]

/-- Both codings are found, under different labels, and the coders are known. -/
example : (((loadNested tsvExt [] exTree {}).toOption.getD {}).items,
      ((loadNested tsvExt [] exTree {}).toOption.getD {}).coders) =
    ([(['x', ',', 'a'], [(nM, [2, 3])]), (['y', ',', 'a'], [(nM, [5])])], {nM}) := by
  decide +kernel

/-- The hypotheses hold for the tree. -/
example : NoStemClash tsvExt exTree ∧ NamesDistinct exTree ∧ Shuffle exTree
    [.file ['b', '.', 't', 'x', 't'] (.error .dataIOError),
     .dir nX [.file ['a', '.', 't', 's', 'v'] (.ok { items := [(['a'], [(nM, [2, 3])])] })],
     .dir nY [.dir nX [], .file ['a', '.', 'c', 's', 'v'] (.ok { items := [(['a'], [(nM, [5])])] })]] := by
  have key : ∀ inner, FolderIn exTree inner →
      (stems tsvExt inner).Nodup ∧ (inner.map entryName).Nodup := by
    intro inner h
    cases h with
    | self => exact ⟨by decide +kernel, by decide +kernel⟩
    | inside hm h =>
      simp only [exTree, List.mem_cons, List.not_mem_nil, or_false, reduceCtorEq, Entry.dir.injEq,
        false_or] at hm
      rcases hm with ⟨rfl, rfl⟩ | ⟨rfl, rfl⟩
      · cases h with
        | self => exact ⟨by decide +kernel, by decide +kernel⟩
        | inside hm h => simp at hm
      · cases h with
        | self => exact ⟨by decide +kernel, by decide +kernel⟩
        | inside hm h =>
          simp only [List.mem_cons, List.not_mem_nil, or_false, reduceCtorEq, Entry.dir.injEq,
            false_or] at hm
          obtain ⟨rfl, rfl⟩ := hm
          cases h with
          | self => exact ⟨by decide +kernel, by decide +kernel⟩
          | inside hm h => cases hm
  refine ⟨fun i h => (key i h).1, fun i h => (key i h).2, ?_⟩
  exact .trans (.swap ..) (.file _ _ (.dir _ (shuffle_refl _ _ le_rfl) (.dir _ (.swap ..) .nil)))

end SegEval.Props
