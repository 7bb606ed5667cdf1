import Verif.Spec.Folders
import Verif.Props.FileNames
import Verif.Lemmas.DataFolders

namespace SegEval

open Spec Props

variable {V : Type _}

theorem matches_extension {accept : Name → Bool} {name : Name} (h : Matches accept name) :
    ∃ ext, HasExtension name (splitExt name).1 ext := by
  by_cases hx : ∃ stem ext, HasExtension name stem ext
  · obtain ⟨stem, ext, hx⟩ := hx
    rw [splitExt_some hx]
    exact ⟨ext, hx⟩
  · push Not at hx
    have := h.1
    rw [splitExt_none hx] at this
    simp at this

theorem sameStem_iff {accept : Name → Bool} {name name' : Name} (h : Matches accept name)
    (h' : Matches accept name') : SameStem name name' ↔ (splitExt name).1 = (splitExt name').1 := by
  obtain ⟨ext, hx⟩ := matches_extension h
  obtain ⟨ext', hx'⟩ := matches_extension h'
  constructor
  · rintro ⟨stem, e, e', a, b⟩
    rw [splitExt_some a, splitExt_some b]
  · intro he
    rw [← he] at hx'
    exact ⟨_, _, _, hx, hx'⟩

/-! ## The loaded files, with their names -/

/-- As `matchingFiles`, with the file names. -/
def namedFiles (accept : Name → Bool) :
    List (Entry V) → List (Name × Name × Py (DS V)) → List (Name × Name × Py (DS V))
  | [], acc => acc
  | .file name content :: rest, acc =>
    if Matches accept name then namedFiles accept rest (dictSet acc (splitExt name).1 (name, content))
    else namedFiles accept rest acc
  | .dir _ _ :: rest, acc => namedFiles accept rest acc

theorem namedFiles_map (accept : Name → Bool) (l : List (Entry V)) (acc : List (Name × Name × Py (DS V))) :
    (namedFiles accept l acc).map (fun e => (e.1, e.2.2)) =
      matchingFiles accept l (acc.map (fun e => (e.1, e.2.2))) := by
  induction l generalizing acc with
  | nil => rfl
  | cons e es ih =>
    cases e with
    | dir n s => exact ih acc
    | file name content =>
      rw [namedFiles, matchingFiles]
      by_cases hm : Matches accept name
      · rw [if_pos hm, if_pos (show _ ∧ _ from hm), ih,
          dictSet_map (fun x : Name × Py (DS V) => x.2)]
      · rw [if_neg hm, if_neg (show ¬ (_ ∧ _) from hm), ih]

theorem dictSet_nodup {κ α : Type _} [DecidableEq κ] {d : List (κ × α)} (h : (d.map Prod.fst).Nodup)
    (k : κ) (v : α) : ((dictSet d k v).map Prod.fst).Nodup := by
  cases hg : dictGet d k with
  | none =>
    rw [dictSet_new hg, List.map_append, List.nodup_append]
    refine ⟨h, by simp, ?_⟩
    intro a ha b hb hab
    obtain ⟨x, hx, rfl⟩ := List.mem_map.1 ha
    simp only [List.map_cons, List.map_nil, List.mem_singleton] at hb
    exact dictGet_none_iff.1 hg x hx (hab.trans hb)
  | some v0 =>
    obtain ⟨pre, post, h1, h2⟩ := dictSet_split hg
    rw [h2, List.map_append, List.map_cons]
    rw [h1, List.map_append, List.map_cons] at h
    exact h

theorem namedFiles_nodup (accept : Name → Bool) (l : List (Entry V)) (acc : List (Name × Name × Py (DS V)))
    (h : (acc.map Prod.fst).Nodup) : ((namedFiles accept l acc).map Prod.fst).Nodup := by
  induction l generalizing acc with
  | nil => exact h
  | cons e es ih =>
    cases e with
    | dir n s => exact ih acc h
    | file name content =>
      rw [namedFiles]
      split
      · exact ih _ (dictSet_nodup h _ _)
      · exact ih acc h

/-- What the dict of files holds for a stem. -/
theorem namedFiles_get (accept : Name → Bool) (l : List (Entry V)) (acc : List (Name × Name × Py (DS V)))
    (stem name : Name) (content : Py (DS V)) :
    dictGet (namedFiles accept l acc) stem = some (name, content) ↔
      (∃ before after, l = before ++ Entry.file name content :: after ∧ Matches accept name ∧
        (splitExt name).1 = stem ∧ ∀ n c, Entry.file n c ∈ after → Matches accept n → (splitExt n).1 ≠ stem) ∨
      (dictGet acc stem = some (name, content) ∧
        ∀ n c, Entry.file n c ∈ l → Matches accept n → (splitExt n).1 ≠ stem) := by
  induction l generalizing acc with
  | nil => simp [namedFiles]
  | cons e es ih =>
    cases e with
    | dir f s =>
      rw [namedFiles, ih]
      constructor
      · rintro (⟨b, a, rfl, h⟩ | ⟨h1, h2⟩)
        · exact Or.inl ⟨_ :: b, a, rfl, h⟩
        · refine Or.inr ⟨h1, fun n c hm => h2 n c ?_⟩
          simpa using hm
      · rintro (⟨b, a, hl, h⟩ | ⟨h1, h2⟩)
        · cases b with
          | nil => simp at hl
          | cons x xs =>
            rw [List.cons_append, List.cons.injEq] at hl
            exact Or.inl ⟨xs, a, hl.2, h⟩
        · exact Or.inr ⟨h1, fun n c hm => h2 n c (List.mem_cons_of_mem _ hm)⟩
    | file fn fc =>
      rw [namedFiles]
      by_cases hm : Matches accept fn
      · rw [if_pos hm, ih, dictGet_set]
        constructor
        · rintro (⟨b, a, rfl, h⟩ | ⟨h1, h2⟩)
          · exact Or.inl ⟨_ :: b, a, rfl, h⟩
          · by_cases hs : stem = (splitExt fn).1
            · rw [if_pos hs] at h1
              cases h1
              exact Or.inl ⟨[], es, rfl, hm, hs.symm, h2⟩
            · rw [if_neg hs] at h1
              refine Or.inr ⟨h1, ?_⟩
              intro n c hn hn'
              rcases List.mem_cons.1 hn with hn | hn
              · cases hn; exact Ne.symm hs
              · exact h2 n c hn hn'
        · rintro (⟨b, a, hl, h⟩ | ⟨h1, h2⟩)
          · cases b with
            | nil =>
              simp only [List.nil_append, List.cons.injEq, Entry.file.injEq] at hl
              obtain ⟨⟨rfl, rfl⟩, rfl⟩ := hl
              refine Or.inr ⟨?_, h.2.2⟩
              rw [if_pos h.2.1.symm]
            | cons x xs =>
              rw [List.cons_append, List.cons.injEq] at hl
              exact Or.inl ⟨xs, a, hl.2, h⟩
          · refine Or.inr ⟨?_, fun n c hn => h2 n c (List.mem_cons_of_mem _ hn)⟩
            rw [if_neg (Ne.symm (h2 fn fc (List.mem_cons_self ..) hm))]
            exact h1
      · rw [if_neg hm, ih]
        constructor
        · rintro (⟨b, a, rfl, h⟩ | ⟨h1, h2⟩)
          · exact Or.inl ⟨_ :: b, a, rfl, h⟩
          · refine Or.inr ⟨h1, fun n c hn hn' => ?_⟩
            rcases List.mem_cons.1 hn with hn | hn
            · cases hn; exact absurd hn' hm
            · exact h2 n c hn hn'
        · rintro (⟨b, a, hl, h⟩ | ⟨h1, h2⟩)
          · cases b with
            | nil =>
              simp only [List.nil_append, List.cons.injEq, Entry.file.injEq] at hl
              obtain ⟨⟨rfl, rfl⟩, rfl⟩ := hl
              exact absurd h.1 hm
            | cons x xs =>
              rw [List.cons_append, List.cons.injEq] at hl
              exact Or.inl ⟨xs, a, hl.2, h⟩
          · exact Or.inr ⟨h1, fun n c hn => h2 n c (List.mem_cons_of_mem _ hn)⟩

theorem mem_namedFiles {accept : Name → Bool} {l : List (Entry V)} {x : Name × Name × Py (DS V)} :
    x ∈ namedFiles accept l [] ↔
      ∃ before after, l = before ++ Entry.file x.2.1 x.2.2 :: after ∧ Matches accept x.2.1 ∧
        (splitExt x.2.1).1 = x.1 ∧ ∀ n c, Entry.file n c ∈ after → Matches accept n → (splitExt n).1 ≠ x.1 := by
  have hg := namedFiles_get accept l [] x.1 x.2.1 x.2.2
  simp only [dictGet, reduceCtorEq, false_and, or_false] at hg
  rw [← hg]
  constructor
  · intro h
    exact dictGet_of_mem (namedFiles_nodup accept l [] (by simp)) h
  · intro h
    exact dictGet_mem h

/-! ## The tree without the files that are not loaded -/

mutual
/-- The folders, each without the files that are not loaded. -/
def trimDirs (accept : Name → Bool) : List (Entry V) → List (Entry V)
  | [] => []
  | e :: rest => trimDir accept e ++ trimDirs accept rest
/-- One entry. -/
def trimDir (accept : Name → Bool) : Entry V → List (Entry V)
  | .file _ _ => []
  | .dir name sub => [.dir name ((namedFiles accept sub []).map (fun x => .file x.2.1 x.2.2) ++ trimDirs accept sub)]
end

/-- A folder without the files that are not loaded, files first. -/
def trim (accept : Name → Bool) (entries : List (Entry V)) : List (Entry V) :=
  (namedFiles accept entries []).map (fun x => .file x.2.1 x.2.2) ++ trimDirs accept entries

theorem mem_trimDirs {accept : Name → Bool} {l : List (Entry V)} {e : Entry V} :
    e ∈ trimDirs accept l ↔ ∃ folder sub, Entry.dir folder sub ∈ l ∧ e = .dir folder (trim accept sub) := by
  induction l with
  | nil => simp [trimDirs]
  | cons x xs ih =>
    rw [trimDirs, List.mem_append, ih]
    cases x with
    | file n c =>
      rw [trimDir]
      simp
    | dir n s =>
      rw [trimDir]
      simp only [List.mem_cons, List.not_mem_nil, or_false, Entry.dir.injEq]
      constructor
      · rintro (rfl | ⟨f, t, h, rfl⟩)
        · exact ⟨n, s, Or.inl ⟨rfl, rfl⟩, rfl⟩
        · exact ⟨f, t, Or.inr h, rfl⟩
      · rintro ⟨f, t, ⟨rfl, rfl⟩ | h, rfl⟩
        · exact Or.inl rfl
        · exact Or.inr ⟨f, t, h, rfl⟩

theorem mem_trim_file {accept : Name → Bool} {l : List (Entry V)} {name : Name} {content : Py (DS V)} :
    Entry.file name content ∈ trim accept l ↔ ∃ stem, (stem, name, content) ∈ namedFiles accept l [] := by
  unfold trim
  rw [List.mem_append, mem_trimDirs, List.mem_map]
  constructor
  · rintro (⟨x, hx, he⟩ | ⟨_, _, _, he⟩)
    · simp only [Entry.file.injEq] at he
      obtain ⟨rfl, rfl⟩ := he
      exact ⟨x.1, hx⟩
    · cases he
  · rintro ⟨stem, h⟩
    exact Or.inl ⟨_, h, rfl⟩

theorem mem_trim_dir {accept : Name → Bool} {l : List (Entry V)} {folder : Name} {sub : List (Entry V)} :
    Entry.dir folder sub ∈ trim accept l ↔
      ∃ sub', Entry.dir folder sub' ∈ l ∧ sub = trim accept sub' := by
  unfold trim
  rw [List.mem_append, mem_trimDirs, List.mem_map]
  constructor
  · rintro (⟨x, hx, he⟩ | ⟨f, s, h, he⟩)
    · cases he
    · simp only [Entry.dir.injEq] at he
      obtain ⟨rfl, rfl⟩ := he
      exact ⟨s, h, rfl⟩
  · rintro ⟨s, h, rfl⟩
    exact Or.inr ⟨folder, s, h, rfl⟩

/-- The files of the trimmed tree are the files that are kept. -/
theorem trim_fileIn {accept : Name → Bool} {entries : List (Entry V)} {path : List Name} {name : Name}
    {content : Py (DS V)} :
    FileIn (trim accept entries) path name content ∧ Matches accept name ↔
      KeptIn accept entries path name content := by
  constructor
  · rintro ⟨h, hm⟩
    generalize ht : trim accept entries = t at h
    induction h generalizing entries with
    | here h =>
      subst ht
      obtain ⟨stem, h⟩ := mem_trim_file.1 h
      obtain ⟨b, a, rfl, h1, h2, h3⟩ := mem_namedFiles.1 h
      simp only at h2 h3
      subst h2
      refine .here hm ?_
      intro n c hn hn' hs
      exact h3 n c hn hn' ((sameStem_iff hm hn').1 hs).symm
    | inside h _ ih =>
      subst ht
      obtain ⟨s, h0, rfl⟩ := mem_trim_dir.1 h
      exact .inside h0 (ih hm rfl)
  · intro h
    induction h with
    | here hm h =>
      refine ⟨.here (mem_trim_file.2 ⟨(splitExt _).1, mem_namedFiles.2 ⟨_, _, rfl, hm, rfl, ?_⟩⟩), hm⟩
      intro n c hn hn' he
      exact h n c hn hn' ((sameStem_iff hm hn').2 he.symm)
    | inside h _ ih =>
      exact ⟨.inside (mem_trim_dir.2 ⟨_, h, rfl⟩) ih.1, ih.2⟩

theorem folderIn_trim {accept : Name → Bool} {entries inner : List (Entry V)}
    (h : FolderIn (trim accept entries) inner) :
    ∃ inner', FolderIn entries inner' ∧ inner = trim accept inner' := by
  generalize ht : trim accept entries = t at h
  induction h generalizing entries with
  | self => exact ⟨entries, .self, ht.symm⟩
  | inside h _ ih =>
    subst ht
    obtain ⟨s, h0, rfl⟩ := mem_trim_dir.1 h
    obtain ⟨i, h1, h2⟩ := ih rfl
    exact ⟨i, .inside h0 h1, h2⟩

theorem stems_append (accept : Name → Bool) (l l' : List (Entry V)) :
    stems accept (l ++ l') = stems accept l ++ stems accept l' := by
  induction l with
  | nil => rfl
  | cons e es ih =>
    cases e with
    | dir n s => exact ih
    | file name content =>
      rw [List.cons_append, stems, stems, ih]
      split <;> rfl

theorem stems_files (accept : Name → Bool) (l : List (Name × Name × Py (DS V)))
    (h : ∀ x ∈ l, Matches accept x.2.1 ∧ (splitExt x.2.1).1 = x.1) :
    stems accept (l.map (fun x => Entry.file x.2.1 x.2.2)) = l.map Prod.fst := by
  induction l with
  | nil => rfl
  | cons e es ih =>
    rw [List.map_cons, stems, if_pos (h e (by simp)).1, (h e (by simp)).2,
      ih (fun x hx => h x (List.mem_cons_of_mem _ hx)), List.map_cons]

theorem stems_dirs (accept : Name → Bool) (l : List (Entry V))
    (h : ∀ e ∈ l, ∃ f s, e = Entry.dir f s) : stems accept l = [] := by
  induction l with
  | nil => rfl
  | cons e es ih =>
    obtain ⟨f, s, rfl⟩ := h e (by simp)
    rw [stems]
    exact ih (fun x hx => h x (List.mem_cons_of_mem _ hx))

theorem trimDirs_dirs {accept : Name → Bool} {l : List (Entry V)} :
    ∀ e ∈ trimDirs accept l, ∃ f s, e = Entry.dir f s := by
  intro e he
  obtain ⟨f, s, _, rfl⟩ := mem_trimDirs.1 he
  exact ⟨f, _, rfl⟩

theorem namedFiles_facts {accept : Name → Bool} {l : List (Entry V)} :
    ∀ x ∈ namedFiles accept l [], Matches accept x.2.1 ∧ (splitExt x.2.1).1 = x.1 := by
  intro x hx
  obtain ⟨_, _, _, h1, h2, _⟩ := mem_namedFiles.1 hx
  exact ⟨h1, h2⟩

theorem trim_noStemClash (accept : Name → Bool) (entries : List (Entry V)) :
    NoStemClash accept (trim accept entries) := by
  intro inner hi
  obtain ⟨i, _, rfl⟩ := folderIn_trim hi
  unfold trim
  rw [stems_append, stems_files _ _ namedFiles_facts, stems_dirs _ _ trimDirs_dirs, List.append_nil]
  exact namedFiles_nodup accept i [] (by simp)

theorem trimDirs_names (accept : Name → Bool) (l : List (Entry V)) :
    ((trimDirs accept l).map entryName).Sublist (l.map entryName) := by
  induction l with
  | nil => simp [trimDirs]
  | cons e es ih =>
    rw [trimDirs]
    cases e with
    | file n c => rw [trimDir, List.nil_append, List.map_cons]; exact ih.cons _
    | dir n s => rw [trimDir, List.singleton_append, List.map_cons, List.map_cons]; exact ih.cons_cons _

theorem trim_namesDistinct {accept : Name → Bool} {entries : List (Entry V)} (h : NamesDistinct entries) :
    NamesDistinct (trim accept entries) := by
  intro inner hi
  obtain ⟨i, hi0, rfl⟩ := folderIn_trim hi
  have hn := h i hi0
  unfold trim
  rw [List.map_append, List.nodup_append, List.map_map]
  refine ⟨?_, (trimDirs_names accept i).nodup hn, ?_⟩
  · have hs := namedFiles_nodup accept i [] (by simp)
    have he : (namedFiles accept i []).map Prod.fst =
        ((namedFiles accept i []).map (entryName ∘ fun x => Entry.file x.2.1 x.2.2)).map
          (fun n => (splitExt n).1) := by
      rw [List.map_map]
      apply List.map_congr_left
      intro x hx
      exact (namedFiles_facts x hx).2.symm
    rw [he] at hs
    exact hs.of_map _
  · intro a ha b hb hab
    subst hab
    obtain ⟨x, hx, rfl⟩ := List.mem_map.1 ha
    obtain ⟨e, he, hb'⟩ := List.mem_map.1 hb
    obtain ⟨f, s, hm, rfl⟩ := mem_trimDirs.1 he
    obtain ⟨bf, af, rfl, _⟩ := mem_namedFiles.1 hx
    simp only [entryName, Function.comp_apply] at hb'
    subst hb'
    rw [List.mem_append, List.mem_cons] at hm
    rw [List.map_append, List.map_cons, List.nodup_append, List.nodup_cons] at hn
    rcases hm with hm | hm | hm
    · exact hn.2.2 _ (List.mem_map.2 ⟨_, hm, rfl⟩) _ (List.mem_cons_self ..) rfl
    · cases hm
    · exact hn.2.1.1 (List.mem_map.2 ⟨_, hm, rfl⟩)

theorem matchingFiles_files (accept : Name → Bool) (l : List (Name × Name × Py (DS V)))
    (rest : List (Entry V)) (hr : ∀ e ∈ rest, ∃ f s, e = Entry.dir f s)
    (h : ∀ x ∈ l, Matches accept x.2.1 ∧ (splitExt x.2.1).1 = x.1)
    (acc : List (Name × Py (DS V))) (hn : (acc.map Prod.fst ++ l.map Prod.fst).Nodup) :
    matchingFiles accept (l.map (fun x => Entry.file x.2.1 x.2.2) ++ rest) acc =
      acc ++ l.map (fun e => (e.1, e.2.2)) := by
  induction l generalizing acc with
  | nil =>
    simp only [List.map_nil, List.nil_append, List.append_nil]
    clear hn h
    induction rest with
    | nil => rfl
    | cons e es ih =>
      obtain ⟨f, s, rfl⟩ := hr e (by simp)
      rw [matchingFiles]
      exact ih (fun x hx => hr x (List.mem_cons_of_mem _ hx))
  | cons x xs ih =>
    obtain ⟨h1, h2⟩ := h x (by simp)
    rw [List.map_cons, List.cons_append, matchingFiles, if_pos (show _ ∧ _ from h1), h2]
    have hnew : dictGet acc x.1 = none := by
      rw [dictGet_none_iff]
      intro y hy he
      rw [List.nodup_append] at hn
      exact hn.2.2 _ (List.mem_map_of_mem (f := Prod.fst) hy) _ (List.mem_cons_self ..) he
    rw [dictSet_new hnew, ih (fun y hy => h y (List.mem_cons_of_mem _ hy))]
    · simp
    · simpa using hn

theorem matchingFiles_trim (accept : Name → Bool) (l : List (Entry V)) :
    matchingFiles accept (trim accept l) [] = matchingFiles accept l [] := by
  unfold trim
  rw [matchingFiles_files accept _ _ trimDirs_dirs namedFiles_facts []
    (by simpa using namedFiles_nodup accept l [] (by simp))]
  exact namedFiles_map accept l []

theorem loadDirs_files (accept : Name → Bool) (prepend : List Name) (l : List (Name × Name × Py (DS V)))
    (rest : List (Entry V)) (d : DS V) :
    loadDirs accept prepend (l.map (fun x => Entry.file x.2.1 x.2.2) ++ rest) d =
      loadDirs accept prepend rest d := by
  induction l with
  | nil => rfl
  | cons x xs ih =>
    rw [List.map_cons, List.cons_append, loadDirs, loadDir]
    exact ih

theorem loadDirs_trim (accept : Name → Bool) (n : ℕ) (prepend : List Name) (l : List (Entry V))
    (hn : sizeOf l ≤ n) (d : DS V) :
    loadDirs accept prepend (trimDirs accept l) d = loadDirs accept prepend l d := by
  induction n generalizing prepend l d with
  | zero => cases l <;> simp at hn
  | succ n ih =>
    cases l with
    | nil => rw [trimDirs]
    | cons e es =>
      have hes : ∀ d, loadDirs accept prepend (trimDirs accept es) d = loadDirs accept prepend es d :=
        fun d => ih prepend es (by simp at hn; omega) d
      cases e with
      | file name content =>
        rw [trimDirs, trimDir, List.nil_append, hes, loadDirs, loadDir]
      | dir name sub =>
        rw [trimDirs, trimDir, List.singleton_append, loadDirs, loadDir, loadDirs, loadDir]
        have h1 := matchingFiles_trim accept sub
        unfold trim at h1
        rw [h1]
        cases loadFiles (prepend ++ [name]) (matchingFiles accept sub []) d with
        | error e => rfl
        | ok d1 =>
          simp only
          rw [loadDirs_files, ih (prepend ++ [name]) sub (by simp at hn; omega)]
          cases loadDirs accept (prepend ++ [name]) sub d1 with
          | error e => rfl
          | ok d2 => exact hes d2

/-- Files that are not kept play no part. -/
theorem loadNested_trim (accept : Name → Bool) (prepend : List Name) (l : List (Entry V)) (d : DS V) :
    loadNested accept prepend (trim accept l) d = loadNested accept prepend l d := by
  rw [loadNested, loadNested, matchingFiles_trim]
  cases loadFiles prepend (matchingFiles accept l []) d with
  | error e => rfl
  | ok d1 =>
    simp only
    unfold trim
    rw [loadDirs_files, loadDirs_trim _ _ _ _ le_rfl]

end SegEval
