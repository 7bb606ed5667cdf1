import Verif.Props.FolderText
import Verif.Props.JsonText

/-!
# C87: folders of JSON files, as text
-/

namespace SegEval.Props

open SegEval Spec

theorem jsonName_iff (name : Name) : JsonName name ↔ Matches FileType.json.accepts name :=
  (C83_loaded .json name).symm

theorem mem_readJson_file {F : Floats} {l : List FsEntry} {name : Name}
    {r : Py (DS (List JVal))} : Entry.file name r ∈ readJsonAll F l ↔
      ∃ text, FsEntry.file name text ∈ l ∧ r = inputJsonText F text := by
  induction l with
  | nil => simp [readJsonAll]
  | cons e es ih =>
    rw [readJsonAll, List.mem_cons, ih]
    cases e with
    | file n t =>
      rw [readJson]
      simp only [Entry.file.injEq, List.mem_cons, FsEntry.file.injEq]
      constructor
      · rintro (⟨rfl, rfl⟩ | ⟨text, h1, h2⟩)
        · exact ⟨t, Or.inl ⟨rfl, rfl⟩, rfl⟩
        · exact ⟨text, Or.inr h1, h2⟩
      · rintro ⟨text, ⟨rfl, rfl⟩ | h1, h2⟩
        · exact Or.inl ⟨rfl, h2⟩
        · exact Or.inr ⟨text, h1, h2⟩
    | dir n s => rw [readJson]; simp

theorem mem_readJson_dir {F : Floats} {l : List FsEntry} {folder : Name}
    {s : List (Entry (List JVal))} : Entry.dir folder s ∈ readJsonAll F l ↔
      ∃ sub, FsEntry.dir folder sub ∈ l ∧ s = readJsonAll F sub := by
  induction l with
  | nil => simp [readJsonAll]
  | cons e es ih =>
    rw [readJsonAll, List.mem_cons, ih]
    cases e with
    | file n t => rw [readJson]; simp
    | dir n s0 =>
      rw [readJson]
      simp only [Entry.dir.injEq, List.mem_cons, FsEntry.dir.injEq]
      constructor
      · rintro (⟨rfl, rfl⟩ | ⟨sub, h1, h2⟩)
        · exact ⟨s0, Or.inl ⟨rfl, rfl⟩, rfl⟩
        · exact ⟨sub, Or.inr h1, h2⟩
      · rintro ⟨sub, ⟨rfl, rfl⟩ | h1, h2⟩
        · exact Or.inl ⟨rfl, h2⟩
        · exact Or.inr ⟨sub, h1, h2⟩

theorem readJson_append (F : Floats) (l l' : List FsEntry) :
    readJsonAll F (l ++ l') = readJsonAll F l ++ readJsonAll F l' := by
  induction l with
  | nil => simp [readJsonAll]
  | cons e es ih => rw [List.cons_append, readJsonAll, readJsonAll, ih, List.cons_append]

theorem readJson_split {F : Floats} {l : List FsEntry} {b a : List (Entry (List JVal))}
    {name : Name} {r : Py (DS (List JVal))} (h : readJsonAll F l = b ++ Entry.file name r :: a) :
    ∃ before after text, l = before ++ FsEntry.file name text :: after ∧
      r = inputJsonText F text ∧ a = readJsonAll F after := by
  induction l generalizing b with
  | nil => simp [readJsonAll] at h
  | cons e es ih =>
    rw [readJsonAll] at h
    cases b with
    | nil =>
      rw [List.nil_append, List.cons.injEq] at h
      obtain ⟨h1, h2⟩ := h
      cases e with
      | dir n s => rw [readJson] at h1; cases h1
      | file n t =>
        rw [readJson] at h1
        cases h1
        exact ⟨[], es, t, rfl, rfl, h2.symm⟩
    | cons x xs =>
      rw [List.cons_append, List.cons.injEq] at h
      obtain ⟨before, after, text, rfl, h2, h3⟩ := ih h.2
      exact ⟨e :: before, after, text, rfl, h2, h3⟩

theorem jsonKept_iff {F : Floats} {entries : List FsEntry} {path : List Name} {name : Name}
    {r : Py (DS (List JVal))} :
    KeptIn FileType.json.accepts (readJsonAll F entries) path name r ↔
      ∃ text, JsonKept entries path name text ∧ r = inputJsonText F text := by
  constructor
  · intro h
    generalize hl : readJsonAll F entries = l at h
    induction h generalizing entries with
    | here hm h =>
      obtain ⟨before, after, text, rfl, h2, rfl⟩ := readJson_split hl
      refine ⟨text, .here ((jsonName_iff _).2 hm) ?_, h2⟩
      intro n t hn hn'
      exact h n _ (mem_readJson_file.2 ⟨t, hn, rfl⟩) ((jsonName_iff n).1 hn')
    | inside hd _ ih =>
      subst hl
      obtain ⟨sub, h1, h2⟩ := mem_readJson_dir.1 hd
      obtain ⟨text, h3, h4⟩ := ih h2.symm
      exact ⟨text, .inside h1 h3, h4⟩
  · rintro ⟨text, h, rfl⟩
    induction h with
    | here hm h =>
      rw [readJson_append, readJsonAll, readJson]
      refine .here ((jsonName_iff _).1 hm) ?_
      intro n c hn hn'
      obtain ⟨t, h1, _⟩ := mem_readJson_file.1 hn
      exact h n t h1 ((jsonName_iff n).2 hn')
    | inside hd _ ih => exact .inside (mem_readJson_dir.2 ⟨_, hd, rfl⟩) ih

theorem has_iff_doc {F : Floats} {text : Name} {d : DS (List JVal)} (h : inputJsonText F text = .ok d)
    (l m : Name) (t : List JVal) : Has d.items l m t ↔ DocCoding F text l m t := by
  obtain ⟨entries, its, h1, h2, _, _, _, h3⟩ := C85_paired_holds h
  rw [h3]
  constructor
  · rintro ⟨cs, v, h4, h5, h6⟩
    exact ⟨entries, its, cs, v, h1, h2, h4, h5, h6⟩
  · rintro ⟨entries', its', cs, v, h1', h2', h4, h5, h6⟩
    cases C85_paired_unique h1 h1'
    rw [h2] at h2'
    cases h2'
    exact ⟨cs, v, h4, h5, h6⟩

theorem jsonCoding_iff {F : Floats} {entries : List FsEntry}
    (hl : ∀ path name text, JsonKept entries path name text → ∃ d, inputJsonText F text = .ok d)
    {label m : Name} {t : List JVal} {path : List Name} {name item : Name} :
    KeptCoding FileType.json.accepts [] (readJsonAll F entries) label m t path name item ↔
      JsonCoding F entries label m t path name item := by
  unfold KeptCoding JsonCoding
  constructor
  · rintro ⟨ds, hk, hh, rfl⟩
    obtain ⟨text, h1, h2⟩ := jsonKept_iff.1 hk
    exact ⟨text, h1, (has_iff_doc h2.symm _ _ _).1 hh, by simp⟩
  · rintro ⟨text, h1, h2, rfl⟩
    obtain ⟨d, hd⟩ := hl _ _ _ h1
    exact ⟨d, jsonKept_iff.2 ⟨text, h1, hd.symm⟩, (has_iff_doc hd _ _ _).2 h2, by simp⟩

theorem json_dict {F : Floats} {text : Name} {d : DS (List JVal)} (h : inputJsonText F text = .ok d) :
    IsDict2 d.items := by
  obtain ⟨_, _, _, _, h, _⟩ := C85_paired_holds h
  exact h

/-- C87: a folder tree that loads yields exactly the codings of the JSON files in it, each under the
folder names and its item joined by commas, and their coders; all these files are linear documents, and
their properties are dropped.  Loaded is, in each folder, every file with extension json or jsn of which
no other with the same stem is listed later. -/
theorem C87_content (F : Floats) {entries : List FsEntry} {d : DS (List JVal)}
    (h : loadJsonFolder F entries = .ok d) :
    (∀ label m t, Has d.items label m t ↔ ∃ path name item, JsonCoding F entries label m t path name item) ∧
    (∀ m, m ∈ d.coders ↔ ∃ label t path name item, JsonCoding F entries label m t path name item) ∧
    (∀ path name text, JsonKept entries path name text →
      ∃ e, JDoc F text (.obj e) ∧ Loadable e) ∧
    d.properties = [] := by
  obtain ⟨h1, h2, h3, h4⟩ := C58_exact_content (d0 := {}) ⟨by simp, by simp⟩ (by
    intro path name ds hk
    obtain ⟨text, _, h2⟩ := jsonKept_iff.1 hk
    exact json_dict h2.symm) h
  have hl : ∀ path name text, JsonKept entries path name text → ∃ d, inputJsonText F text = .ok d := by
    intro path name text hk
    exact h3 path name _ (jsonKept_iff.2 ⟨text, hk, rfl⟩)
  refine ⟨?_, ?_, ?_, h4⟩
  · intro label m t
    rw [h1]
    simp only [jsonCoding_iff hl]
    simp [Has, dictGet]
  · intro m
    rw [h2]
    simp only [jsonCoding_iff hl]
    simp
  · intro path name text hk
    exact (C85_paired_loads F text).1 (hl _ _ _ hk)

/-- C87: the items are those in the JSON files, also those without codings; the dataset is one of
masses. -/
theorem C87_items (F : Floats) {entries : List FsEntry} {d : DS (List JVal)}
    (h : loadJsonFolder F entries = .ok d) :
    IsDict2 d.items ∧ d.boundaryFormat = .mass ∧ d.boundaryTypes = {1} ∧
    ∀ label, HasItem d.items label ↔ ∃ path name text e its item v, JsonKept entries path name text ∧
      JDoc F text (.obj e) ∧ dictGet e kItems = some (.obj its) ∧ dictGet its item = some v ∧
      label = joinComma (path ++ [item]) := by
  have hloads := (C58_exact_content (d0 := {}) ⟨by simp, by simp⟩ (by
    intro path name ds hk
    obtain ⟨text, _, h2⟩ := jsonKept_iff.1 hk
    exact json_dict h2.symm) h).2.2.1
  obtain ⟨h1, h2, h3, h4⟩ := C58_exact_items (d0 := {}) ⟨by simp, by simp⟩ h
  refine ⟨h1, h2, h3, fun label => (h4 label).trans ?_⟩
  constructor
  · rintro (h | ⟨path, name, ds, item, hk, hi, rfl⟩)
    · simp [HasItem, dictGet] at h
    · obtain ⟨text, h5, h6⟩ := jsonKept_iff.1 hk
      obtain ⟨e, its, h7, h8, _, _, h9, _⟩ := C85_paired_holds h6.symm
      obtain ⟨v, hv⟩ := (h9 item).1 hi
      exact ⟨path, name, text, e, its, item, v, h5, h7, h8, hv, by simp⟩
  · rintro ⟨path, name, text, e, its, item, v, h5, h7, h8, hv, rfl⟩
    obtain ⟨ds, h6⟩ := hloads path name _ (jsonKept_iff.2 ⟨text, h5, rfl⟩)
    obtain ⟨e', its', h7', h8', _, _, h9, _⟩ := C85_paired_holds h6
    cases C85_paired_unique h7 h7'
    rw [h8] at h8'
    cases h8'
    exact Or.inr ⟨path, name, ds, item, jsonKept_iff.2 ⟨text, h5, h6.symm⟩, (h9 item).2 ⟨v, hv⟩, by simp⟩

theorem jsonNames_distinct {F : Floats} {entries : List FsEntry} (hn : FsNames entries) :
    NamesDistinct (readJsonAll F entries) := by
  have hmap : ∀ l : List FsEntry, (readJsonAll F l).map entryName = l.map fsName := by
    intro l
    induction l with
    | nil => rw [readJsonAll]; rfl
    | cons e es ih =>
      rw [readJsonAll, List.map_cons, List.map_cons, ih]
      cases e <;> rw [readJson] <;> rfl
  intro inner hi
  generalize hl : readJsonAll F entries = l at hi
  induction hi generalizing entries with
  | self =>
    rw [← hl, hmap]
    exact (hn _ .self).1
  | inside hd _ ih =>
    subst hl
    obtain ⟨sub, h1, h2⟩ := mem_readJson_dir.1 hd
    exact ih (fun i hi => hn i (.inside h1 hi)) h2.symm

/-- C87: a tree loads when all these files are linear documents and no two codings get the same label
and coder. -/
theorem C87_success (F : Floats) {entries : List FsEntry} (hn : FsNames entries)
    (hl : ∀ path name text, JsonKept entries path name text → ∃ e, JDoc F text (.obj e) ∧ Loadable e)
    (hu : ∀ label m t t' p n i p' n' i', JsonCoding F entries label m t p n i →
      JsonCoding F entries label m t' p' n' i' → p = p' ∧ n = n' ∧ i = i') :
    ∃ d, loadJsonFolder F entries = .ok d := by
  have hl' : ∀ path name text, JsonKept entries path name text → ∃ d, inputJsonText F text = .ok d :=
    fun path name text hk => (C85_paired_loads F text).2 (hl path name text hk)
  refine C58_exact_success (jsonNames_distinct hn) ?_ ?_ ?_
  · intro path name ds hk
    obtain ⟨text, _, h2⟩ := jsonKept_iff.1 hk
    exact json_dict h2.symm
  · intro path name r hk
    obtain ⟨text, h1, rfl⟩ := jsonKept_iff.1 hk
    exact hl' _ _ _ h1
  · intro label m v v' p n i p' n' i' h h'
    exact hu label m v v' p n i p' n' i' ((jsonCoding_iff hl').1 h) ((jsonCoding_iff hl').1 h')

/-- C87: a failure is that of such a file, or DataIOError. -/
theorem C87_failure {F : Floats} {entries : List FsEntry} {e : PyErr}
    (h : loadJsonFolder F entries = .error e) :
    (∃ path name text, JsonKept entries path name text ∧ inputJsonText F text = .error e) ∨
      e = .dataIOError := by
  rcases C58_exact_failure (d0 := {}) ⟨by simp, by simp⟩ h with ⟨path, name, h⟩ | h
  · obtain ⟨text, h1, h2⟩ := jsonKept_iff.1 h
    exact Or.inl ⟨path, name, text, h1, h2.symm⟩
  · exact Or.inr h

/-- A folder with a file, a file of the same stem that is listed later, one of another type, and a
folder below. -/
def exJsonTree : List FsEntry :=
  [.file "a.json".toList "not read".toList, .file "a.JSN".toList exJson, .file "b.txt".toList "?".toList,
   .dir "sub".toList [.file "c.json".toList exJson]]

/-- The folder loads. -/
example : ((loadJsonFolder exFloats exJsonTree).toOption.map (fun d =>
    d.items.map (fun it => (it.1, it.2.map (fun c => (c.1, c.2.map (dumpJson 0))))))) =
    some [(nX, [(nM, [['2'], ['-', '3']])]),
      (['s', 'u', 'b', ',', 'x'], [(nM, [['2'], ['-', '3']])])] := by decide +kernel

/-- The example is a document with one item. -/
theorem exJson_doc : (∃ e, JDoc exFloats exJson (.obj e) ∧ Loadable e) ∧
    ∀ i m t, DocCoding exFloats exJson i m t → i = nX := by
  have h : (inputJsonText exFloats exJson).toOption.map (fun d => d.items.map Prod.fst) = some [nX] := by
    decide +kernel
  cases hd : inputJsonText exFloats exJson with
  | error e => rw [hd] at h; cases h
  | ok d =>
    refine ⟨(C85_paired_loads _ _).1 ⟨d, hd⟩, ?_⟩
    intro i m t ht
    obtain ⟨cs, hc, _⟩ := (has_iff_doc hd i m t).2 ht
    rw [hd] at h
    have hm : i ∈ d.items.map Prod.fst := List.mem_map.2 ⟨_, dictGet_mem hc, rfl⟩
    rw [show d.items.map Prod.fst = [nX] from Option.some.inj h] at hm
    exact List.mem_singleton.1 hm

theorem jsonKept_mem {entries : List FsEntry} {path : List Name} {name text : Name}
    (h : JsonKept entries path name text) :
    (path = [] ∧ FsEntry.file name text ∈ entries) ∨
      ∃ folder sub p, path = folder :: p ∧ FsEntry.dir folder sub ∈ entries ∧ JsonKept sub p name text := by
  cases h with
  | here => exact Or.inl ⟨rfl, by simp⟩
  | inside hd h => exact Or.inr ⟨_, _, _, rfl, hd, h⟩

/-- A tree that meets the conditions of `C87_success`. -/
example : ∃ entries, entries = [FsEntry.file "a.json".toList exJson,
      .dir "sub".toList [.file "c.json".toList exJson]] ∧ FsNames entries ∧
    (∀ path name text, JsonKept entries path name text → ∃ e, JDoc exFloats text (.obj e) ∧ Loadable e) ∧
    ∀ label m t t' p n i p' n' i', JsonCoding exFloats entries label m t p n i →
      JsonCoding exFloats entries label m t' p' n' i' → p = p' ∧ n = n' ∧ i = i' := by
  refine ⟨_, rfl, ?_, ?_, ?_⟩
  · intro inner hi
    cases hi with
    | self => simp [fsName]
    | inside hd hi =>
      simp only [List.mem_cons, reduceCtorEq, FsEntry.dir.injEq, List.not_mem_nil, or_false, false_or] at hd
      obtain ⟨rfl, rfl⟩ := hd
      cases hi with
      | self => simp [fsName]
      | inside hd => simp at hd
  all_goals
    have key : ∀ {path name text}, JsonKept [FsEntry.file "a.json".toList exJson,
        .dir "sub".toList [.file "c.json".toList exJson]] path name text →
        text = exJson ∧ ((path = [] ∧ name = "a.json".toList) ∨
          (path = ["sub".toList] ∧ name = "c.json".toList)) := by
      intro path name text h
      rcases jsonKept_mem h with ⟨rfl, h1⟩ | ⟨folder, sub, p, rfl, h1, h2⟩
      · simp only [List.mem_cons, FsEntry.file.injEq, reduceCtorEq, List.not_mem_nil, or_false] at h1
        exact ⟨h1.2, Or.inl ⟨rfl, h1.1⟩⟩
      · simp only [List.mem_cons, reduceCtorEq, FsEntry.dir.injEq, List.not_mem_nil, or_false, false_or] at h1
        obtain ⟨rfl, rfl⟩ := h1
        rcases jsonKept_mem h2 with ⟨rfl, h3⟩ | ⟨folder, sub, p, rfl, h3, _⟩
        · simp only [List.mem_cons, FsEntry.file.injEq, List.not_mem_nil, or_false] at h3
          exact ⟨h3.2, Or.inr ⟨rfl, h3.1⟩⟩
        · simp at h3
  · intro path name text h
    rw [(key h).1]
    exact exJson_doc.1
  · rintro label m t t' p n i p' n' i' ⟨text, h1, h2, rfl⟩ ⟨text', h1', h2', e⟩
    obtain ⟨rfl, hp⟩ := key h1
    obtain ⟨rfl, hp'⟩ := key h1'
    have hi := exJson_doc.2 _ _ _ h2
    have hi' := exJson_doc.2 _ _ _ h2'
    subst hi hi'
    rcases hp with ⟨rfl, rfl⟩ | ⟨rfl, rfl⟩ <;> rcases hp' with ⟨rfl, rfl⟩ | ⟨rfl, rfl⟩
    · exact ⟨rfl, rfl, rfl⟩
    · exact absurd e (by decide)
    · exact absurd e (by decide)
    · exact ⟨rfl, rfl, rfl⟩

/-- Two files with the same item and coder in one folder: DataIOError. -/
example : (loadJsonFolder exFloats [.file "a.json".toList exJson, .file "b.json".toList exJson]).toOption.isNone ∧
    (loadJsonFolder exFloats [.file "a.json".toList exJson, .file "b.json".toList exJson]).map (fun _ => ()) =
      .error .dataIOError := by decide +kernel

end SegEval.Props
