import Verif.Lemmas.FoldersExact
import Verif.Props.DataFolders

/-!
# C58 without conditions on the file names
-/

namespace SegEval.Props

open SegEval Spec

variable {V : Type _}

theorem trim_codingIn {accept : Name → Bool} {prepend : List Name} {entries : List (Entry V)}
    {label m : Name} {v : V} {path : List Name} {name item : Name} :
    CodingIn accept prepend (trim accept entries) label m v path name item ↔
      KeptCoding accept prepend entries label m v path name item := by
  unfold CodingIn KeptCoding
  constructor
  · rintro ⟨ds, h1, h2, h3⟩
    exact ⟨ds, trim_fileIn.1 ⟨h1, h2⟩, h3⟩
  · rintro ⟨ds, h1, h3⟩
    exact ⟨ds, (trim_fileIn.2 h1).1, (trim_fileIn.2 h1).2, h3⟩

/-- C58 for every tree: what is loaded is exactly the codings of the dataset given and of those
matching files that are the last of their folder with their stem. -/
theorem C58_exact_content {accept : Name → Bool} {prepend : List Name} {entries : List (Entry V)}
    {d0 d : DS V} (hd0 : IsDict2 d0.items)
    (hd : ∀ path name ds, KeptIn accept entries path name (.ok ds) → IsDict2 ds.items)
    (h : loadNested accept prepend entries d0 = .ok d) :
    (∀ label m v, Has d.items label m v ↔ Has d0.items label m v ∨
      ∃ path name item, KeptCoding accept prepend entries label m v path name item) ∧
    (∀ m, m ∈ d.coders ↔ m ∈ d0.coders ∨
      ∃ label v path name item, KeptCoding accept prepend entries label m v path name item) ∧
    (∀ path name r, KeptIn accept entries path name r → ∃ ds, r = .ok ds) ∧
    d.properties = d0.properties := by
  rw [← loadNested_trim] at h
  obtain ⟨h1, h2, h3, h4⟩ := C58_content_partial hd0 (trim_noStemClash accept entries)
    (fun path name ds hf hm => hd path name ds (trim_fileIn.1 ⟨hf, hm⟩)) h
  simp only [trim_codingIn] at h1 h2
  exact ⟨h1, h2, fun path name r hk => h3 path name r (trim_fileIn.2 hk).1 (trim_fileIn.2 hk).2, h4⟩

/-- C58 for every tree: the items are those of the dataset given and of those files, also items without
codings. -/
theorem C58_exact_items {accept : Name → Bool} {prepend : List Name} {entries : List (Entry V)}
    {d0 d : DS V} (hd0 : IsDict2 d0.items) (h : loadNested accept prepend entries d0 = .ok d) :
    IsDict2 d.items ∧ d.boundaryFormat = d0.boundaryFormat ∧ d.boundaryTypes = d0.boundaryTypes ∧
    ∀ label, HasItem d.items label ↔ HasItem d0.items label ∨
      ∃ path name ds item, KeptIn accept entries path name (.ok ds) ∧
        HasItem ds.items item ∧ label = joinComma (prepend ++ path ++ [item]) := by
  rw [← loadNested_trim] at h
  obtain ⟨h1, h2, h3, h4⟩ := C58_items_partial hd0 (trim_noStemClash accept entries) h
  refine ⟨h1, h2, h3, fun label => (h4 label).trans (or_congr Iff.rfl ?_)⟩
  constructor
  · rintro ⟨path, name, ds, item, hf, hm, h⟩
    exact ⟨path, name, ds, item, trim_fileIn.1 ⟨hf, hm⟩, h⟩
  · rintro ⟨path, name, ds, item, hk, h⟩
    exact ⟨path, name, ds, item, (trim_fileIn.2 hk).1, (trim_fileIn.2 hk).2, h⟩

/-- C58 for every tree: loading from scratch succeeds when all those files load and no two of their
codings get the same label and coder. -/
theorem C58_exact_success {accept : Name → Bool} {prepend : List Name} {entries : List (Entry V)}
    (hn : NamesDistinct entries)
    (hd : ∀ path name ds, KeptIn accept entries path name (.ok ds) → IsDict2 ds.items)
    (hl : ∀ path name r, KeptIn accept entries path name r → ∃ ds, r = .ok ds)
    (hu : ∀ label m v v' p n i p' n' i', KeptCoding accept prepend entries label m v p n i →
      KeptCoding accept prepend entries label m v' p' n' i' → p = p' ∧ n = n' ∧ i = i') :
    ∃ d, loadNested accept prepend entries {} = .ok d := by
  rw [← loadNested_trim]
  refine C58_success_partial (trim_noStemClash accept entries) (trim_namesDistinct hn) ?_ ?_ ?_
  · exact fun path name ds hf hm => hd path name ds (trim_fileIn.1 ⟨hf, hm⟩)
  · exact fun path name r hf hm => hl path name r (trim_fileIn.1 ⟨hf, hm⟩)
  · intro label m v v' p n i p' n' i' h h'
    exact hu label m v v' p n i p' n' i' (trim_codingIn.1 h) (trim_codingIn.1 h')

/-- C58 for every tree: a failure is that of such a file, or DataIOError. -/
theorem C58_exact_failure {accept : Name → Bool} {prepend : List Name} {entries : List (Entry V)}
    {d0 : DS V} (hd0 : IsDict2 d0.items) {e : PyErr}
    (h : loadNested accept prepend entries d0 = .error e) :
    (∃ path name, KeptIn accept entries path name (.error e)) ∨ e = .dataIOError := by
  rw [← loadNested_trim] at h
  rcases C58_failure_partial hd0 (trim_noStemClash accept entries) h with ⟨p, n, h1, h2⟩ | h
  · exact Or.inl ⟨p, n, trim_fileIn.1 ⟨h1, h2⟩⟩
  · exact Or.inr h

/-- In the folder with `a.tsv` and `a.csv` only the last is kept. -/
example : KeptIn tsvExt exStem [] "a.csv".toList (.ok { items := [(['a'], [(nN, [5])])] }) ∧
    ∀ r, ¬ KeptIn tsvExt exStem [] "a.tsv".toList r := by
  refine ⟨?_, ?_⟩
  · exact .here (before := [.file _ _]) (after := []) (by decide) (by simp)
  · intro r h
    generalize he : exStem = l at h
    generalize hp : ([] : List Name) = p at h
    generalize hn : "a.tsv".toList = n at h
    cases h with
    | here hm h =>
      rename_i before after
      subst hn
      cases before with
      | nil =>
        simp only [exStem, List.nil_append, List.cons.injEq] at he
        obtain ⟨_, rfl⟩ := he
        exact h _ _ (List.mem_singleton.2 rfl) (by decide)
          ⟨"a".toList, "tsv".toList, "csv".toList, ⟨rfl, by decide, 'a', by decide, by decide⟩,
            rfl, by decide, 'a', by decide, by decide⟩
      | cons x xs =>
        simp only [exStem, List.cons_append, List.cons.injEq] at he
        obtain ⟨_, he⟩ := he
        cases xs with
        | nil =>
          simp only [List.nil_append, List.cons.injEq, Entry.file.injEq] at he
          exact absurd he.1.1 (by decide)
        | cons y ys => simp at he
    | inside => cases hp

end SegEval.Props
