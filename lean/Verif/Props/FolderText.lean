import Verif.Props.FoldersExact
import Verif.Props.TsvText

/-!
# C84: folders of TSV files, as text
-/

namespace SegEval.Props

open SegEval Spec

theorem tsvName_iff (name : Name) : TsvName name ↔ Matches FileType.tsv.accepts name :=
  (C83_loaded .tsv name).symm

theorem mem_readTsv_file {u : Unicode} {path : Name} {l : List FsEntry} {name : Name}
    {r : Py (DS (List ℤ))} : Entry.file name r ∈ readTsvAll u path l ↔
      ∃ text, FsEntry.file name text ∈ l ∧ r = inputTsvText u '\t' (joinPath path name) text := by
  induction l with
  | nil => simp [readTsvAll]
  | cons e es ih =>
    rw [readTsvAll, List.mem_cons, ih]
    cases e with
    | file n t =>
      rw [readTsv]
      simp only [Entry.file.injEq, List.mem_cons, FsEntry.file.injEq]
      constructor
      · rintro (⟨rfl, rfl⟩ | ⟨text, h1, h2⟩)
        · exact ⟨t, Or.inl ⟨rfl, rfl⟩, rfl⟩
        · exact ⟨text, Or.inr h1, h2⟩
      · rintro ⟨text, ⟨rfl, rfl⟩ | h1, h2⟩
        · exact Or.inl ⟨rfl, h2⟩
        · exact Or.inr ⟨text, h1, h2⟩
    | dir n s => rw [readTsv]; simp

theorem mem_readTsv_dir {u : Unicode} {path : Name} {l : List FsEntry} {folder : Name}
    {s : List (Entry (List ℤ))} : Entry.dir folder s ∈ readTsvAll u path l ↔
      ∃ sub, FsEntry.dir folder sub ∈ l ∧ s = readTsvAll u (joinPath path folder) sub := by
  induction l with
  | nil => simp [readTsvAll]
  | cons e es ih =>
    rw [readTsvAll, List.mem_cons, ih]
    cases e with
    | file n t => rw [readTsv]; simp
    | dir n s0 =>
      rw [readTsv]
      simp only [Entry.dir.injEq, List.mem_cons, FsEntry.dir.injEq]
      constructor
      · rintro (⟨rfl, rfl⟩ | ⟨sub, h1, h2⟩)
        · exact ⟨s0, Or.inl ⟨rfl, rfl⟩, rfl⟩
        · exact ⟨sub, Or.inr h1, h2⟩
      · rintro ⟨sub, ⟨rfl, rfl⟩ | h1, h2⟩
        · exact Or.inl ⟨rfl, h2⟩
        · exact Or.inr ⟨sub, h1, h2⟩

theorem readTsv_append (u : Unicode) (path : Name) (l l' : List FsEntry) :
    readTsvAll u path (l ++ l') = readTsvAll u path l ++ readTsvAll u path l' := by
  induction l with
  | nil => simp [readTsvAll]
  | cons e es ih => rw [List.cons_append, readTsvAll, readTsvAll, ih, List.cons_append]

theorem readTsv_split {u : Unicode} {path : Name} {l : List FsEntry} {b a : List (Entry (List ℤ))}
    {name : Name} {r : Py (DS (List ℤ))} (h : readTsvAll u path l = b ++ Entry.file name r :: a) :
    ∃ before after text, l = before ++ FsEntry.file name text :: after ∧
      r = inputTsvText u '\t' (joinPath path name) text ∧ a = readTsvAll u path after := by
  induction l generalizing b with
  | nil => simp [readTsvAll] at h
  | cons e es ih =>
    rw [readTsvAll] at h
    cases b with
    | nil =>
      rw [List.nil_append, List.cons.injEq] at h
      obtain ⟨h1, h2⟩ := h
      cases e with
      | dir n s => rw [readTsv] at h1; cases h1
      | file n t =>
        rw [readTsv] at h1
        cases h1
        exact ⟨[], es, t, rfl, rfl, h2.symm⟩
    | cons x xs =>
      rw [List.cons_append, List.cons.injEq] at h
      obtain ⟨before, after, text, rfl, h2, h3⟩ := ih h.2
      exact ⟨e :: before, after, text, rfl, h2, h3⟩

/-- The path of a folder below. -/
def joinPaths (root : Name) (path : List Name) : Name := path.foldl joinPath root

theorem textKept_iff {u : Unicode} {root : Name} {entries : List FsEntry} {path : List Name} {name : Name}
    {r : Py (DS (List ℤ))} :
    KeptIn FileType.tsv.accepts (readTsvAll u root entries) path name r ↔
      ∃ text, TextKept entries path name text ∧
        r = inputTsvText u '\t' (joinPath (joinPaths root path) name) text := by
  constructor
  · intro h
    generalize hl : readTsvAll u root entries = l at h
    induction h generalizing root entries with
    | here hm h =>
      obtain ⟨before, after, text, rfl, h2, rfl⟩ := readTsv_split hl
      refine ⟨text, .here ((tsvName_iff _).2 hm) ?_, h2⟩
      intro n t hn hn'
      exact h n _ (mem_readTsv_file.2 ⟨t, hn, rfl⟩) ((tsvName_iff n).1 hn')
    | inside hd _ ih =>
      subst hl
      obtain ⟨sub, h1, h2⟩ := mem_readTsv_dir.1 hd
      obtain ⟨text, h3, h4⟩ := ih h2.symm
      exact ⟨text, .inside h1 h3, h4⟩
  · rintro ⟨text, h, rfl⟩
    induction h generalizing root with
    | here hm h =>
      rw [readTsv_append, readTsvAll, readTsv]
      refine .here ((tsvName_iff _).1 hm) ?_
      intro n c hn hn'
      obtain ⟨t, h1, _⟩ := mem_readTsv_file.1 hn
      exact h n t h1 ((tsvName_iff n).2 hn')
    | inside hd _ ih =>
      exact .inside (mem_readTsv_dir.2 ⟨_, hd, rfl⟩) (ih (root := joinPath root _))

theorem lastPart_joinPath (path : Name) {name : Name} (h : '/' ∉ name) : LastPart (joinPath path name) name := by
  unfold joinPath LastPart
  refine ⟨h, ?_⟩
  split_ifs with hc
  · rcases hc with rfl | hc
    · exact Or.inl rfl
    · right
      obtain ⟨ys, rfl⟩ := List.getLast?_eq_some_iff.1 hc
      exact ⟨ys, by simp⟩
  · exact Or.inr ⟨path, rfl⟩

theorem textKept_names {entries : List FsEntry} {path : List Name} {name text : Name}
    (h : TextKept entries path name text) (hn : FsNames entries) : '/' ∉ name ∧ TsvName name := by
  induction h with
  | @here before after name text hm h => exact ⟨(hn _ .self).2 (.file name text) (by simp), hm⟩
  | inside hd _ ih => exact ih (fun inner hi => hn inner (.inside hd hi))

theorem stem_name {name stem ext : Name} (path : Name) (h : HasExtension name stem ext) (hs : '/' ∉ name) :
    nameFromFilepath (joinPath path name) = stem :=
  (C83_name _ _).2 ⟨name, lastPart_joinPath path hs, Or.inl ⟨ext, h⟩⟩

theorem tsvTable_content {u : Unicode} {text : Name} {table : List (Name × List ℤ)}
    (h : TsvTable u text table) (path : Name) :
    ∃ d, inputTsvText u '\t' path text = .ok d ∧
      (∀ l, HasItem d.items l ↔ l = nameFromFilepath path) ∧
      ∀ l m v, Has d.items l m v ↔ l = nameFromFilepath path ∧ LastOf table m v := by
  obtain ⟨header, rows, h1, h2⟩ := h
  exact C81_content u (by unfold Delimiter; decide) path h1 h2

theorem inputTsv_dict {parse : Name → Option ℤ} {item : Name} {rows : List (List Name)} {d : DS (List ℤ)}
    (h : inputTsv parse item rows = .ok d) : IsDict2 d.items := by
  have hnd : ∀ (l : List (List Name)) (acc out : List (Name × List ℤ)), (acc.map Prod.fst).Nodup →
      forLoop l acc (tsvRow parse) = .ok out → (out.map Prod.fst).Nodup := by
    intro l
    induction l with
    | nil => intro acc out ha h; cases h; exact ha
    | cons row rows ih =>
      intro acc out ha h
      rw [forLoop] at h
      cases hr : tsvRow parse acc row with
      | error e => rw [hr] at h; cases h
      | ok acc' =>
        rw [hr] at h
        refine ih acc' out ?_ h
        cases row with
        | nil => cases hr
        | cons c cs =>
          rw [tsvRow] at hr
          cases hf : forLoop cs [] (tsvCol parse) with
          | error e => rw [hf] at hr; cases hr
          | ok masses =>
            rw [hf] at hr
            cases hr
            exact dictSet_nodup ha _ _
  unfold inputTsv at h
  cases hf : forLoop (rows.drop 1) [] (tsvRow parse) with
  | error e => rw [hf] at h; cases h
  | ok codings =>
    rw [hf] at h
    cases h
    refine ⟨by simp [DS.setItem, dictSet], ?_⟩
    intro e he
    simp only [DS.setItem, dictSet, List.mem_singleton] at he
    subst he
    exact hnd _ _ _ (by simp) hf

theorem inputTsvText_dict {u : Unicode} {delim : Char} {path text : Name} {d : DS (List ℤ)}
    (h : inputTsvText u delim path text = .ok d) : IsDict2 d.items := by
  unfold inputTsvText at h
  split at h
  · cases h
  · rename_i d' hd
    split at h
    · cases h
    · cases h
      exact inputTsv_dict hd

theorem inputTsvText_item {u : Unicode} {delim : Char} {path text : Name} {d : DS (List ℤ)}
    (h : inputTsvText u delim path text = .ok d) (item : Name) :
    HasItem d.items item ↔ item = nameFromFilepath path := by
  have key : ∀ {parse : Name → Option ℤ} {rows : List (List Name)} {d : DS (List ℤ)},
      inputTsv parse (nameFromFilepath path) rows = .ok d →
      (HasItem d.items item ↔ item = nameFromFilepath path) := by
    intro parse rows d h
    unfold inputTsv at h
    split at h
    · cases h
    · cases h
      unfold HasItem DS.setItem
      simp only [dictSet, dictGet]
      by_cases he : nameFromFilepath path = item
      · simp [he]
      · simp [he, Ne.symm he]
  unfold inputTsvText at h
  split at h
  · cases h
  · rename_i d' hd
    split at h
    · cases h
    · cases h
      exact key hd

theorem keptCoding_iff {u : Unicode} {root : Name} {entries : List FsEntry} (hn : FsNames entries)
    (ht : ∀ path name text, TextKept entries path name text → ∃ table, TsvTable u text table)
    {label m : Name} {v : List ℤ} {path : List Name} {name item : Name} :
    KeptCoding FileType.tsv.accepts [] (readTsvAll u root entries) label m v path name item ↔
      ∃ text ext table, TextKept entries path name text ∧ HasExtension name item ext ∧
        TsvTable u text table ∧ label = joinComma (path ++ [item]) ∧ LastOf table m v := by
  unfold KeptCoding
  constructor
  · rintro ⟨ds, hk, hh, rfl⟩
    obtain ⟨text, h1, h2⟩ := textKept_iff.1 hk
    obtain ⟨hs, stem, ext, hx, _⟩ := textKept_names h1 hn
    obtain ⟨table, htab⟩ := ht _ _ _ h1
    obtain ⟨d, h3, _, h5⟩ := tsvTable_content htab (joinPath (joinPaths root path) name)
    rw [← h2] at h3
    cases h3
    rw [h5, stem_name _ hx hs] at hh
    obtain ⟨rfl, hl⟩ := hh
    exact ⟨text, ext, table, h1, hx, htab, by simp, hl⟩
  · rintro ⟨text, ext, table, h1, hx, htab, rfl, hl⟩
    obtain ⟨hs, _⟩ := textKept_names h1 hn
    obtain ⟨d, h3, _, h5⟩ := tsvTable_content htab (joinPath (joinPaths root path) name)
    refine ⟨d, textKept_iff.2 ⟨text, h1, h3.symm⟩, (h5 _ _ _).2 ⟨?_, hl⟩, by simp⟩
    exact (stem_name _ hx hs).symm

/-- C84: a folder tree whose loaded files are tables, if it loads, yields exactly the codings of those
tables, each under the folder names and the file's stem joined by commas, and their coders.  Loaded is,
in each folder, every file with extension tsv or csv of which no other with the same stem is listed
later. -/
theorem C84_content (u : Unicode) (root : Name) {entries : List FsEntry} (hn : FsNames entries)
    (ht : ∀ path name text, TextKept entries path name text → ∃ table, TsvTable u text table)
    {d : DS (List ℤ)} (h : loadTsvFolder u root entries = .ok d) :
    (∀ label m v, Has d.items label m v ↔ TextCoding u entries label m v) ∧
    ∀ m, m ∈ d.coders ↔ ∃ label v, TextCoding u entries label m v := by
  obtain ⟨h1, h2, _⟩ := C58_exact_content (d0 := {}) ⟨by simp, by simp⟩ (by
    intro path name ds hk
    obtain ⟨text, _, h2⟩ := textKept_iff.1 hk
    exact inputTsvText_dict h2.symm) h
  have hiff : ∀ label m v, (∃ path name item, KeptCoding FileType.tsv.accepts []
      (readTsvAll u root entries) label m v path name item) ↔ TextCoding u entries label m v := by
    intro label m v
    simp only [keptCoding_iff hn ht]
    unfold TextCoding
    constructor
    · rintro ⟨p, n, i, t, e, tb, h⟩; exact ⟨p, n, t, i, e, tb, h⟩
    · rintro ⟨p, n, t, i, e, tb, h⟩; exact ⟨p, n, i, t, e, tb, h⟩
  refine ⟨?_, ?_⟩
  · intro label m v
    rw [h1, hiff]
    simp [Has, dictGet]
  · intro m
    rw [h2]
    constructor
    · rintro (h | ⟨l, v, h⟩)
      · simp at h
      · exact ⟨l, v, (hiff l m v).1 h⟩
    · rintro ⟨l, v, h⟩
      exact Or.inr ⟨l, v, (hiff l m v).2 h⟩

/-- C84: the items are the loaded files, also those without codings; the dataset is one of masses. -/
theorem C84_items (u : Unicode) (root : Name) {entries : List FsEntry} (hn : FsNames entries)
    {d : DS (List ℤ)} (h : loadTsvFolder u root entries = .ok d) :
    IsDict2 d.items ∧ d.boundaryFormat = .mass ∧ d.boundaryTypes = {1} ∧
    ∀ label, HasItem d.items label ↔ ∃ path name text stem ext, TextKept entries path name text ∧
      HasExtension name stem ext ∧ label = joinComma (path ++ [stem]) := by
  have hloads := (C58_exact_content (d0 := {}) ⟨by simp, by simp⟩ (by
    intro path name ds hk
    obtain ⟨text, _, h2⟩ := textKept_iff.1 hk
    exact inputTsvText_dict h2.symm) h).2.2.1
  obtain ⟨h1, h2, h3, h4⟩ := C58_exact_items (d0 := {}) ⟨by simp, by simp⟩ h
  refine ⟨h1, h2, h3, fun label => (h4 label).trans ?_⟩
  have hstem : ∀ {path name text ds stem ext}, TextKept entries path name text → HasExtension name stem ext →
      inputTsvText u '\t' (joinPath (joinPaths root path) name) text = .ok ds →
      ∀ item, HasItem ds.items item ↔ item = stem := by
    intro path name text ds stem ext hk hx he item
    rw [inputTsvText_item he, stem_name _ hx (textKept_names hk hn).1]
  constructor
  · rintro (h | ⟨path, name, ds, item, hk, hi, rfl⟩)
    · simp [HasItem, dictGet] at h
    · obtain ⟨text, h5, h6⟩ := textKept_iff.1 hk
      obtain ⟨_, stem, ext, hx, _⟩ := textKept_names h5 hn
      rw [(hstem h5 hx h6.symm item).1 hi]
      exact ⟨path, name, text, stem, ext, h5, hx, by simp⟩
  · rintro ⟨path, name, text, stem, ext, h5, hx, rfl⟩
    obtain ⟨ds, h6⟩ := hloads path name _ (textKept_iff.2 ⟨text, h5, rfl⟩)
    exact Or.inr ⟨path, name, ds, stem, textKept_iff.2 ⟨text, h5, h6.symm⟩, (hstem h5 hx h6 stem).2 rfl,
      by simp⟩

/-! ## Success -/

theorem joinComma_count (l : List Name) (hl : ∀ x ∈ l, ',' ∉ x) {l' : List Name} (hl' : ∀ x ∈ l', ',' ∉ x)
    (h0 : l ≠ []) (h0' : l' ≠ []) (h : joinComma l = joinComma l') : l = l' := by
  have cut : ∀ {x y r r' : Name}, ',' ∉ x → ',' ∉ y → x ++ ',' :: r = y ++ ',' :: r' → x = y ∧ r = r' := by
    intro x
    induction x with
    | nil =>
      intro y r r' _ hy h
      cases y with
      | nil => simpa using h
      | cons b bs =>
        simp only [List.nil_append, List.cons_append, List.cons.injEq] at h
        exact absurd (by rw [h.1]; simp) hy
    | cons a as ih =>
      intro y r r' hx hy h
      cases y with
      | nil =>
        simp only [List.nil_append, List.cons_append, List.cons.injEq] at h
        exact absurd (by simp [h.1]) hx
      | cons b bs =>
        simp only [List.cons_append, List.cons.injEq] at h
        obtain ⟨h1, h2⟩ := ih (fun h => hx (by simp [h])) (fun h => hy (by simp [h])) h.2
        exact ⟨by rw [h.1, h1], h2⟩
  induction l generalizing l' with
  | nil => exact absurd rfl h0
  | cons x xs ih =>
    cases l' with
    | nil => exact absurd rfl h0'
    | cons y ys =>
      cases xs with
      | nil =>
        cases ys with
        | nil => simpa [joinComma] using h
        | cons z zs =>
          simp only [joinComma] at h
          exact absurd (by rw [h]; simp) (hl x (by simp))
      | cons w ws =>
        cases ys with
        | nil =>
          simp only [joinComma] at h
          exact absurd (by rw [← h]; simp) (hl' y (by simp))
        | cons z zs =>
          simp only [joinComma] at h
          obtain ⟨rfl, h2⟩ := cut (hl x (by simp)) (hl' y (by simp)) h
          rw [ih (fun a ha => hl a (List.mem_cons_of_mem _ ha)) (fun a ha => hl' a (List.mem_cons_of_mem _ ha))
            (by simp) (by simp) h2]

theorem fsNames_distinct {u : Unicode} {root : Name} {entries : List FsEntry} (hn : FsNames entries) :
    NamesDistinct (readTsvAll u root entries) := by
  have hmap : ∀ (root : Name) (l : List FsEntry), (readTsvAll u root l).map entryName = l.map fsName := by
    intro root l
    induction l with
    | nil => rw [readTsvAll]; rfl
    | cons e es ih =>
      rw [readTsvAll, List.map_cons, List.map_cons, ih]
      cases e <;> rw [readTsv] <;> rfl
  intro inner hi
  generalize hl : readTsvAll u root entries = l at hi
  induction hi generalizing root entries with
  | self =>
    rw [← hl, hmap]
    exact (hn _ .self).1
  | inside hd _ ih =>
    subst hl
    obtain ⟨sub, h1, h2⟩ := mem_readTsv_dir.1 hd
    exact ih (fun i hi => hn i (.inside h1 hi)) h2.symm

theorem textKept_unique {entries : List FsEntry} (hn : FsNames entries) {path : List Name}
    {name name' text text' : Name} (h : TextKept entries path name text)
    (h' : TextKept entries path name' text') (hs : SameStem name name') : name = name' := by
  induction h generalizing name' text' with
  | @here before after name text hm hlast =>
    generalize he : before ++ FsEntry.file name text :: after = l at h'
    generalize hp : ([] : List Name) = p at h'
    cases h' with
    | inside => cases hp
    | @here before' after' _ _ hm' hlast' =>
      by_contra hne
      have hmem : FsEntry.file name text ∈ before' ++ FsEntry.file name' text' :: after' := by
        rw [← he]; simp
      have hmem' : FsEntry.file name' text' ∈ before ++ FsEntry.file name text :: after := by
        rw [he]; simp
      rw [List.mem_append, List.mem_cons] at hmem hmem'
      have hs' : SameStem name' name := by
        obtain ⟨s, e, e', h1, h2⟩ := hs
        exact ⟨s, e', e, h2, h1⟩
      rcases hmem with hb | hb | hb
      · rcases hmem' with ha | ha | ha
        · -- each before the other
          rcases List.append_eq_append_iff.1 he with ⟨c, h1, h2⟩ | ⟨c, h1, h2⟩
          · cases c with
            | nil =>
              rw [List.nil_append, List.cons.injEq, FsEntry.file.injEq] at h2
              exact hne h2.1.1
            | cons x xs =>
              rw [List.cons_append, List.cons.injEq] at h2
              exact hlast _ text' (by rw [h2.2]; simp) hm' hs
          · cases c with
            | nil =>
              rw [List.nil_append, List.cons.injEq, FsEntry.file.injEq] at h2
              exact hne h2.1.1.symm
            | cons x xs =>
              rw [List.cons_append, List.cons.injEq] at h2
              exact hlast' _ text (by rw [h2.2]; simp) hm hs'
        · cases ha; exact hne rfl
        · exact hlast _ _ ha hm' hs
      · cases hb; exact hne rfl
      · exact hlast' _ _ hb hm hs'
  | @inside entries folder sub path name text hd hk ih =>
    generalize hp : folder :: path = p at h'
    cases h' with
    | here => cases hp
    | @inside _ folder' sub' path' _ _ hd' hk' =>
      cases hp
      have : sub = sub' := by
        have hnd := (hn entries .self).1
        obtain ⟨b, a, rfl⟩ := List.append_of_mem hd
        rw [List.mem_append, List.mem_cons] at hd'
        rw [List.map_append, List.map_cons, List.nodup_append, List.nodup_cons] at hnd
        rcases hd' with h | h | h
        · exact absurd rfl (hnd.2.2 _ (List.mem_map.2 ⟨_, h, rfl⟩) _ (List.mem_cons_self ..))
        · cases h; rfl
        · exact absurd (List.mem_map.2 ⟨_, h, rfl⟩) hnd.2.1.1
      subst this
      exact ih (fun i hi => hn i (.inside hd hi)) hk' hs

/-- C84: such a tree loads when no folder name on the way and no stem has a comma. -/
theorem C84_success (u : Unicode) (root : Name) {entries : List FsEntry} (hn : FsNames entries)
    (ht : ∀ path name text, TextKept entries path name text → ∃ table, TsvTable u text table)
    (hc : ∀ path name text stem ext, TextKept entries path name text → HasExtension name stem ext →
      ∀ part ∈ path ++ [stem], ',' ∉ part) :
    ∃ d, loadTsvFolder u root entries = .ok d := by
  refine C58_exact_success (fsNames_distinct hn) ?_ ?_ ?_
  · intro path name ds hk
    obtain ⟨text, _, h2⟩ := textKept_iff.1 hk
    exact inputTsvText_dict h2.symm
  · intro path name r hk
    obtain ⟨text, h1, rfl⟩ := textKept_iff.1 hk
    obtain ⟨table, htab⟩ := ht _ _ _ h1
    obtain ⟨d, h, _⟩ := tsvTable_content htab (joinPath (joinPaths root path) name)
    exact ⟨d, h⟩
  · intro label m v v' p n i p' n' i' h h'
    rw [keptCoding_iff hn ht] at h h'
    obtain ⟨t, e, tb, h1, h2, _, h3, _⟩ := h
    obtain ⟨t', e', tb', h1', h2', _, h3', _⟩ := h'
    have := joinComma_count (p ++ [i]) (hc p n t i e h1 h2) (hc p' n' t' i' e' h1' h2') (by simp) (by simp)
      (h3.symm.trans h3')
    obtain ⟨rfl, hi⟩ := List.append_inj' this rfl
    rw [List.cons.injEq] at hi
    obtain ⟨rfl, _⟩ := hi
    exact ⟨rfl, textKept_unique hn h1 h1' ⟨i, e, e', h2, h2'⟩, rfl⟩

/-! ## Comma-separated files -/

theorem commas_cell {cell w : Name} (h : WrittenCell ',' cell w) (hq : '"' ∉ w) : w = cell ∧
    ∀ c ∈ w, c ≠ '\n' ∧ c ≠ '\r' ∧ c ≠ '\x00' := by
  cases h with
  | plain h1 h2 h3 => exact ⟨rfl, fun c hc => (h1 c hc).2⟩
  | quoted => simp at hq

theorem commas_row {row : List Name} {w : Name} (h : WrittenRow ',' row w) (hq : '"' ∉ w) :
    w = joinComma row ∧ ∀ c ∈ w, c ≠ '\n' ∧ c ≠ '\r' ∧ c ≠ '\x00' := by
  induction h with
  | one h => exact commas_cell h hq
  | @more cell w cells t h hr ih =>
    rw [List.mem_append, List.mem_cons] at hq
    push Not at hq
    obtain ⟨h1, h2⟩ := commas_cell h hq.1
    obtain ⟨h3, h4⟩ := ih hq.2.2
    refine ⟨?_, ?_⟩
    · rw [h1, h3]
      cases hr <;> rfl
    · intro c hc
      rw [List.mem_append, List.mem_cons] at hc
      rcases hc with hc | rfl | hc
      · exact h2 c hc
      · decide
      · exact h4 c hc

theorem commas_table {rows : List (List Name)} {text : Name} (h : WrittenTable ',' rows text)
    (ht : '\t' ∉ text) (hq : '"' ∉ text) (hl : text.length ≤ 131072) (hb : [] ∉ rows) :
    WrittenTable '\t' (rows.map (fun row => [joinComma row])) text := by
  have line : ∀ {row : List Name} {w : Name}, WrittenRow ',' row w → '\t' ∉ w → '"' ∉ w →
      w.length ≤ 131072 → WrittenRow '\t' [joinComma row] w := by
    intro row w hr ht hq hl
    obtain ⟨h1, h2⟩ := commas_row hr hq
    rw [← h1]
    refine .one (.plain ?_ ?_ hl)
    · intro c hc
      refine ⟨?_, h2 c hc⟩
      rintro rfl
      exact ht hc
    · intro hh
      exact hq (List.mem_of_mem_head? hh)
  induction h with
  | nil => exact .nil
  | last hr hne => exact .last (line hr ht hq hl) hne
  | row hr hne he _ ih =>
    simp only [List.mem_append, List.length_append, List.mem_cons, not_or] at ht hq hl hb
    exact .row (line hr ht.1.1 hq.1.1 (by omega)) hne he
      (ih ht.2 hq.2 (by omega) hb.2)
  | blank => simp at hb

/-- C84: a file separated by commas (as the accepted extension csv suggests), without tabs and quotes,
is loaded with the tab as delimiter all the same: every line after the first becomes a coder with the
whole line as name and no masses. -/
theorem C84_commas (u : Unicode) (path : Name) {header : List Name} {rows : List (List Name)} {text : Name}
    (h : WrittenTable ',' (header :: rows) text) (ht : '\t' ∉ text) (hq : '"' ∉ text)
    (hl : text.length ≤ 131072) (hb : [] ∉ header :: rows) :
    ∃ d, inputTsvText u '\t' path text = .ok d ∧
      ∀ l m v, Has d.items l m v ↔
        l = nameFromFilepath path ∧ v = [] ∧ ∃ row ∈ rows, m = joinComma row := by
  have hw := commas_table h ht hq hl hb
  rw [List.map_cons] at hw
  obtain ⟨d, h1, _, h3⟩ := tsvTable_content (u := u) (table := rows.map (fun row => (joinComma row, [])))
    ⟨_, _, hw, by
      clear hw h hb
      induction rows with
      | nil => exact .nil
      | cons r rs ih => exact .cons ⟨[], rfl, .nil⟩ ih⟩ path
  refine ⟨d, h1, ?_⟩
  intro l m v
  rw [h3]
  refine and_congr Iff.rfl ?_
  constructor
  · rintro ⟨b, a, he, _⟩
    have : (m, v) ∈ rows.map (fun row => (joinComma row, ([] : List ℤ))) := by rw [he]; simp
    obtain ⟨row, hr, he⟩ := List.mem_map.1 this
    simp only [Prod.mk.injEq] at he
    exact ⟨he.2.symm, row, hr, he.1.symm⟩
  · rintro ⟨rfl, row, hr, rfl⟩
    clear hw h hb h3
    induction rows using List.reverseRecOn with
    | nil => simp at hr
    | append_singleton rs r ih =>
      by_cases heq : joinComma r = joinComma row
      · exact ⟨rs.map (fun row => (joinComma row, [])), [], by simp [heq], by simp⟩
      · rw [List.mem_append, List.mem_singleton] at hr
        rcases hr with hr | rfl
        · obtain ⟨b, a, h1, h2⟩ := ih hr
          refine ⟨b, a ++ [(joinComma r, [])], ?_, ?_⟩
          · rw [List.map_append, h1]; simp
          · intro e he
            rw [List.mem_append, List.mem_singleton] at he
            rcases he with he | rfl
            · exact h2 e he
            · exact heq
        · exact absurd rfl heq

/-! ## Examples -/

/-- A tree with two tables and a file that is not loaded. -/
def exFs : List FsEntry :=
  [.file "a.tsv".toList "c\t1\nm\t2\t3".toList, .file "notes.txt".toList "?".toList,
   .dir "x".toList [.file "b.CSV".toList "c\t1\nn\t5\n".toList]]

example : (loadTsvFolder asciiOnly "/data".toList exFs).toOption.map DS.items =
    some [("a".toList, [(nM, [2, 3])]), ("x,b".toList, [(nN, [5])])] := by
  decide +kernel

/-- The tree meets the hypotheses. -/
example : FsNames exFs ∧
    (∀ path name text, TextKept exFs path name text → ∃ table, TsvTable asciiOnly text table) ∧
    ∀ path name text stem ext, TextKept exFs path name text → HasExtension name stem ext →
      ∀ part ∈ path ++ [stem], ',' ∉ part := by
  have hkept : ∀ path name text, TextKept exFs path name text →
      (path = [] ∧ name = "a.tsv".toList ∧ text = "c\t1\nm\t2\t3".toList) ∨
      (path = ["x".toList] ∧ name = "b.CSV".toList ∧ text = "c\t1\nn\t5\n".toList) := by
    have hfile : ∀ {l : List FsEntry} {path : List Name} {name text : Name}, TextKept l path name text →
        (path = [] ∧ FsEntry.file name text ∈ l ∧ TsvName name) ∨
        ∃ folder sub rest, path = folder :: rest ∧ FsEntry.dir folder sub ∈ l ∧ TextKept sub rest name text := by
      intro l path name text h
      cases h with
      | here hm h => exact Or.inl ⟨rfl, by simp, hm⟩
      | inside hd hk => exact Or.inr ⟨_, _, _, rfl, hd, hk⟩
    intro path name text h
    rcases hfile h with ⟨rfl, hm, hn⟩ | ⟨folder, sub, rest, rfl, hd, hk⟩
    · simp only [exFs, List.mem_cons, FsEntry.file.injEq, reduceCtorEq, List.not_mem_nil, or_false] at hm
      rcases hm with ⟨rfl, rfl⟩ | ⟨rfl, rfl⟩
      · exact Or.inl ⟨rfl, rfl, rfl⟩
      · rw [tsvName_iff] at hn
        exact absurd hn (by decide +kernel)
    · simp only [exFs, List.mem_cons, FsEntry.dir.injEq, reduceCtorEq, List.not_mem_nil, or_false,
        false_or] at hd
      obtain ⟨rfl, rfl⟩ := hd
      rcases hfile hk with ⟨rfl, hm, hn⟩ | ⟨folder, sub, rest, rfl, hd, hk⟩
      · simp only [List.mem_singleton, FsEntry.file.injEq] at hm
        obtain ⟨rfl, rfl⟩ := hm
        exact Or.inr ⟨rfl, rfl, rfl⟩
      · simp at hd
  have hp : ∀ {cell : Name}, (∀ c ∈ cell, c ≠ '\t' ∧ c ≠ '\n' ∧ c ≠ '\r' ∧ c ≠ '\x00') ∧
      cell.head? ≠ some '"' ∧ cell.length ≤ 131072 → WrittenCell '\t' cell cell := by
    rintro cell ⟨h1, h2, h3⟩; exact .plain h1 h2 h3
  refine ⟨?_, ?_, ?_⟩
  · intro inner h
    have hd : ∀ {folder : Name} {sub : List FsEntry}, FsEntry.dir folder sub ∈ exFs →
        sub = [.file "b.CSV".toList "c\t1\nn\t5\n".toList] := by
      intro folder sub hd
      simp only [exFs, List.mem_cons, FsEntry.dir.injEq, reduceCtorEq, List.not_mem_nil, or_false,
        false_or] at hd
      exact hd.2
    cases h with
    | self => exact ⟨by decide +kernel, by simp [exFs, fsName]⟩
    | inside hm hi =>
      rw [hd hm] at hi
      cases hi with
      | self => exact ⟨by decide +kernel, by simp [fsName]⟩
      | inside hm => simp at hm
  · intro path name text h
    have r1 : WrittenRow '\t' [['c'], ['1']] "c\t1".toList :=
      .more (w := ['c']) (hp (by decide)) (.one (hp (by decide)))
    rcases hkept _ _ _ h with ⟨_, _, rfl⟩ | ⟨_, _, rfl⟩
    · have r2 : WrittenRow '\t' [nM, ['2'], ['3']] "m\t2\t3".toList :=
        .more (w := nM) (hp (by decide)) (.more (w := ['2']) (hp (by decide)) (.one (hp (by decide))))
      refine ⟨[(nM, [2, 3])], _, _, .row r1 (by decide) (Or.inl rfl) (.last r2 (by decide)),
        .cons ⟨_, rfl, .cons ?_ (.cons ?_ .nil)⟩ .nil⟩ <;> rw [← pyInt_iff] <;> decide +kernel
    · have r2 : WrittenRow '\t' [nN, ['5']] "n\t5".toList :=
        .more (w := nN) (hp (by decide)) (.one (hp (by decide)))
      refine ⟨[(nN, [5])], _, _, .row r1 (by decide) (Or.inl rfl) (.row r2 (by decide) (Or.inl rfl) .nil),
        .cons ⟨_, rfl, .cons ?_ .nil⟩ .nil⟩
      rw [← pyInt_iff]
      decide +kernel
  · intro path name text stem ext h hx
    rcases hkept _ _ _ h with ⟨rfl, rfl, _⟩ | ⟨rfl, rfl, _⟩
    · obtain ⟨rfl, _⟩ := extension_unique hx
        (⟨rfl, by decide, 'a', by decide, by decide⟩ : HasExtension "a.tsv".toList "a".toList "tsv".toList)
      decide
    · obtain ⟨rfl, _⟩ := extension_unique hx
        (⟨rfl, by decide, 'b', by decide, by decide⟩ : HasExtension "b.CSV".toList "b".toList "CSV".toList)
      decide

/-- A comma-separated file. -/
example : (loadTsvFolder asciiOnly "/data".toList [.file "a.csv".toList "c,1\nm,2,3".toList]).toOption.map DS.items =
    some [("a".toList, [("m,2,3".toList, [])])] := by
  decide +kernel

end SegEval.Props
