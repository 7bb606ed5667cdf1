import Verif.Lemmas.DataTsv

namespace SegEval

open Spec

variable {V : Type _}

/-! ## The list of matching files -/

/-- The matching files of one folder. -/
def directFiles (accept : Name → Bool) (prepend : List Name) :
    List (Entry V) → List (List Name × Py (DS V))
  | [] => []
  | .file name content :: rest =>
    if Matches accept name then (prepend, content) :: directFiles accept prepend rest
    else directFiles accept prepend rest
  | .dir _ _ :: rest => directFiles accept prepend rest

/-- The matching files in folders below. -/
def belowFiles (accept : Name → Bool) (prepend : List Name) :
    List (Entry V) → List (List Name × Py (DS V))
  | [] => []
  | .file _ _ :: rest => belowFiles accept prepend rest
  | .dir name entries :: rest =>
    (directFiles accept (prepend ++ [name]) entries ++ belowFiles accept (prepend ++ [name]) entries) ++
      belowFiles accept prepend rest

/-- All matching files, in the order in which they are loaded. -/
def allFiles (accept : Name → Bool) (prepend : List Name) (entries : List (Entry V)) :
    List (List Name × Py (DS V)) :=
  directFiles accept prepend entries ++ belowFiles accept prepend entries

/-- Load a list of files. -/
def loadAll : List (List Name × Py (DS V)) → DS V → Py (DS V)
  | [], d => .ok d
  | (prepend, content) :: rest, d =>
    match content with
    | .error e => .error e
    | .ok other =>
      match DS.iadd (some prepend) d other.items with
      | (_, some e) => .error e
      | (d', none) => loadAll rest d'

theorem loadAll_append (l l' : List (List Name × Py (DS V))) (d : DS V) :
    loadAll (l ++ l') d = match loadAll l d with
      | .error e => .error e
      | .ok d' => loadAll l' d' := by
  induction l generalizing d with
  | nil => rfl
  | cons x xs ih =>
    obtain ⟨p, c⟩ := x
    rw [List.cons_append]
    cases c with
    | error e => rfl
    | ok other =>
      simp only [loadAll]
      cases DS.iadd (some p) d other.items with
      | mk d' oe =>
        cases oe with
        | none => exact ih d'
        | some e => rfl

theorem loadFiles_eq (prepend : List Name) (l : List (Name × Py (DS V))) (d : DS V) :
    loadFiles prepend l d = loadAll (l.map (fun x => (prepend, x.2))) d := by
  induction l generalizing d with
  | nil => rfl
  | cons x xs ih =>
    obtain ⟨n, c⟩ := x
    rw [List.map_cons]
    cases c with
    | error e => rfl
    | ok other =>
      simp only [loadFiles, loadAll]
      cases DS.iadd (some prepend) d other.items with
      | mk d' oe =>
        cases oe with
        | none => exact ih d'
        | some e => rfl

theorem matchingFiles_eq (accept : Name → Bool) (prepend : List Name) (entries : List (Entry V))
    (acc : List (Name × Py (DS V))) (h : (acc.map Prod.fst ++ stems accept entries).Nodup) :
    (matchingFiles accept entries acc).map (fun x => (prepend, x.2)) =
      acc.map (fun x => (prepend, x.2)) ++ directFiles accept prepend entries := by
  induction entries generalizing acc with
  | nil => simp [matchingFiles, directFiles]
  | cons e es ih =>
    cases e with
    | dir n s => exact ih acc h
    | file name content =>
      rw [matchingFiles, directFiles]
      by_cases hm : Matches accept name
      · rw [if_pos hm, if_pos (show _ ∧ _ from hm)]
        rw [stems, if_pos hm] at h
        have hnew : dictGet acc (splitExt name).1 = none := by
          rw [dictGet_none_iff]
          intro x hx he
          rw [List.nodup_append] at h
          exact h.2.2 _ (List.mem_map_of_mem (f := Prod.fst) hx) _ (List.mem_cons_self ..) he
        rw [dictSet_new hnew, ih]
        · simp
        · simpa using h
      · rw [if_neg hm, if_neg (show ¬ (_ ∧ _) from hm)]
        rw [stems, if_neg hm] at h
        exact ih acc h

theorem noStemClash_inside {accept : Name → Bool} {entries sub : List (Entry V)} {folder : Name}
    (h : NoStemClash accept entries) (hm : Entry.dir folder sub ∈ entries) : NoStemClash accept sub :=
  fun inner hi => h inner (.inside hm hi)

/-- Loading the folders amounts to loading the list of files. -/
theorem loadDirs_eq (accept : Name → Bool) (n : ℕ) (prepend : List Name) (entries : List (Entry V))
    (hn : sizeOf entries ≤ n)
    (hc : ∀ folder sub, Entry.dir folder sub ∈ entries → NoStemClash accept sub) (d : DS V) :
    loadDirs accept prepend entries d = loadAll (belowFiles accept prepend entries) d := by
  induction n generalizing prepend entries d with
  | zero => cases entries <;> simp at hn
  | succ n ih =>
    cases entries with
    | nil => rw [loadDirs, belowFiles]; rfl
    | cons e es =>
      have hes : ∀ d, loadDirs accept prepend es d = loadAll (belowFiles accept prepend es) d :=
        fun d => ih prepend es (by simp at hn; omega)
          (fun f s h => hc f s (List.mem_cons_of_mem _ h)) d
      cases e with
      | file name content => rw [loadDirs, loadDir, belowFiles]; exact hes d
      | dir name sub =>
        have hsub := hc name sub (List.mem_cons_self ..)
        rw [loadDirs, loadDir, belowFiles, loadAll_append, loadAll_append, loadFiles_eq,
          matchingFiles_eq accept _ sub [] (by simpa using hsub sub .self)]
        simp only [List.map_nil, List.nil_append]
        cases loadAll (directFiles accept (prepend ++ [name]) sub) d with
        | error e => rfl
        | ok d1 =>
          simp only
          rw [ih (prepend ++ [name]) sub (by simp at hn; omega) (fun f s h => noStemClash_inside hsub h) d1]
          cases loadAll (belowFiles accept (prepend ++ [name]) sub) d1 with
          | error e => rfl
          | ok d2 => exact hes d2

theorem loadNested_eq (accept : Name → Bool) (prepend : List Name) (entries : List (Entry V))
    (hc : NoStemClash accept entries) (d : DS V) :
    loadNested accept prepend entries d = loadAll (allFiles accept prepend entries) d := by
  rw [loadNested, loadFiles_eq, matchingFiles_eq accept _ entries [] (by simpa using hc entries .self),
    allFiles, List.map_nil, List.nil_append, loadAll_append]
  cases loadAll (directFiles accept prepend entries) d with
  | error e => rfl
  | ok d1 => exact loadDirs_eq accept _ prepend entries le_rfl (fun f s h => noStemClash_inside hc h) d1

/-! ## What a list of files yields -/

/-- The codings of a list of files. -/
def fileCodings (l : List (List Name × Py (DS V))) : List ((Name × Name) × V) :=
  l.flatMap (fun x => match x.2 with
    | .ok ds => pflat (some x.1) ds.items
    | .error _ => [])

theorem fileCodings_cons (p : List Name) (ds : DS V) (l : List (List Name × Py (DS V))) :
    fileCodings ((p, .ok ds) :: l) = pflat (some p) ds.items ++ fileCodings l := rfl

theorem loadAll_outcome (l : List (List Name × Py (DS V))) (d : DS V) (hd : IsDict2 d.items) :
    match loadAll l d with
    | .ok d' => (∀ x ∈ l, ∃ ds, x.2 = .ok ds) ∧ Added d d' (fileCodings l) [] ∧
        ((flat d.items ++ fileCodings l).map Prod.fst).Nodup
    | .error e => (∃ x ∈ l, x.2 = .error e) ∨
        (e = .dataIOError ∧ ¬ ((flat d.items ++ fileCodings l).map Prod.fst).Nodup) := by
  induction l generalizing d with
  | nil =>
    refine ⟨by simp, ⟨hd, by simp [fileCodings], by simp [fileCodings], rfl, rfl, rfl⟩, ?_⟩
    simpa [fileCodings] using flat_nodup hd
  | cons x xs ih =>
    obtain ⟨p, c⟩ := x
    cases c with
    | error e => exact Or.inl ⟨_, List.mem_cons_self .., rfl⟩
    | ok ds =>
      simp only [loadAll]
      have ho := iadd_outcome (some p) d hd ds.items
      revert ho
      cases DS.iadd (some p) d ds.items with
      | mk d1 oe =>
        rintro (⟨h1, h2, h3⟩ | ⟨h1, done, y, rest, hl, h2, h3, h4⟩)
        · simp only at h1
          subst h1
          simp only at h2 ⊢
          have hi := ih d1 h2.dict
          have hp : (((flat d1.items ++ fileCodings xs).map Prod.fst)).Perm
              ((flat d.items ++ fileCodings ((p, .ok ds) :: xs)).map Prod.fst) := by
            apply List.Perm.map
            rw [fileCodings_cons, ← List.append_assoc]
            exact h2.perm.append_right _
          revert hi
          cases loadAll xs d1 with
          | ok d' =>
            rintro ⟨a1, a2, a3⟩
            refine ⟨?_, ?_, hp.nodup_iff.1 a3⟩
            · intro x hx
              rcases List.mem_cons.1 hx with rfl | hx
              · exact ⟨ds, rfl⟩
              · exact a1 x hx
            · rw [fileCodings_cons]
              exact h2.trans a2
          | error e =>
            rintro (⟨x, hx, he⟩ | ⟨a1, a2⟩)
            · exact Or.inl ⟨x, List.mem_cons_of_mem _ hx, he⟩
            · exact Or.inr ⟨a1, fun h => a2 (hp.nodup_iff.2 h)⟩
        · simp only at h1
          subst h1
          simp only
          refine Or.inr ⟨trivial, ?_⟩
          rw [fileCodings_cons, hl, ← List.append_assoc, ← List.append_assoc]
          intro hnd
          rw [List.append_assoc, List.map_append, List.nodup_append] at hnd
          exact hnd.2.2 _ h4 _ (by simp) rfl

/-- The items of a list of files that loads. -/
theorem loadAll_items (l : List (List Name × Py (DS V))) (d : DS V) {d' : DS V} (h : loadAll l d = .ok d')
    (label : Name) : HasItem d'.items label ↔ HasItem d.items label ∨
      ∃ p ds item, (p, .ok ds) ∈ l ∧ HasItem ds.items item ∧ label = joinComma (p ++ [item]) := by
  induction l generalizing d with
  | nil => cases h; simp
  | cons x xs ih =>
    obtain ⟨p, c⟩ := x
    cases c with
    | error e => cases h
    | ok ds =>
      simp only [loadAll] at h
      have hi := iadd_items (some p) d ds.items
      revert hi h
      cases DS.iadd (some p) d ds.items with
      | mk d1 oe =>
        cases oe with
        | some e => intro h; cases h
        | none =>
          intro h hi
          simp only at h
          rw [ih d1 h, hi rfl label, or_assoc]
          refine or_congr Iff.rfl ?_
          have hd : ∀ item, HasItem ds.items item ↔ ∃ it ∈ ds.items, it.1 = item := by
            intro item
            constructor
            · rintro ⟨cs, hc⟩; exact ⟨_, dictGet_mem hc, rfl⟩
            · intro hx
              by_contra hn
              have : dictGet ds.items item = none := by
                cases hg : dictGet ds.items item with
                | none => rfl
                | some cs => exact absurd ⟨cs, hg⟩ hn
              obtain ⟨it, h1, h2⟩ := hx
              exact (dictGet_none_iff.1 this) it h1 h2
          constructor
          · rintro (⟨it, h1, h2⟩ | ⟨q, ds', item, h1, h2, h3⟩)
            · exact ⟨p, ds, it.1, List.mem_cons_self .., (hd _).2 ⟨it, h1, rfl⟩, h2.symm⟩
            · exact ⟨q, ds', item, List.mem_cons_of_mem _ h1, h2, h3⟩
          · rintro ⟨q, ds', item, h1, h2, h3⟩
            rcases List.mem_cons.1 h1 with h1 | h1
            · cases h1
              obtain ⟨it, h4, h5⟩ := (hd _).1 h2
              refine Or.inl ⟨it, h4, ?_⟩
              rw [h3, h5]
              rfl
            · exact Or.inr ⟨q, ds', item, h1, h2, h3⟩

/-! ## Membership and order -/

theorem mem_directFiles {accept : Name → Bool} {prepend : List Name} {entries : List (Entry V)}
    {p : List Name} {c : Py (DS V)} : (p, c) ∈ directFiles accept prepend entries ↔
      p = prepend ∧ ∃ name, Entry.file name c ∈ entries ∧ Matches accept name := by
  induction entries with
  | nil => simp [directFiles]
  | cons e es ih =>
    cases e with
    | dir n s => rw [directFiles, ih]; simp
    | file name content =>
      rw [directFiles]
      by_cases hm : Matches accept name
      · rw [if_pos hm, List.mem_cons, ih]
        simp only [Prod.mk.injEq, List.mem_cons, Entry.file.injEq]
        constructor
        · rintro (⟨rfl, rfl⟩ | ⟨rfl, n, h1, h2⟩)
          · exact ⟨rfl, name, Or.inl ⟨rfl, rfl⟩, hm⟩
          · exact ⟨rfl, n, Or.inr h1, h2⟩
        · rintro ⟨rfl, n, ⟨rfl, rfl⟩ | h1, h2⟩
          · exact Or.inl ⟨rfl, rfl⟩
          · exact Or.inr ⟨rfl, n, h1, h2⟩
      · rw [if_neg hm, ih]
        simp only [List.mem_cons, Entry.file.injEq]
        constructor
        · rintro ⟨rfl, n, h1, h2⟩
          exact ⟨rfl, n, Or.inr h1, h2⟩
        · rintro ⟨rfl, n, ⟨rfl, rfl⟩ | h1, h2⟩
          · exact absurd h2 hm
          · exact ⟨rfl, n, h1, h2⟩

theorem mem_belowFiles {accept : Name → Bool} (n : ℕ) {prepend : List Name} {entries : List (Entry V)}
    (hn : sizeOf entries ≤ n) {p : List Name} {c : Py (DS V)} :
    (p, c) ∈ belowFiles accept prepend entries ↔
      ∃ folder path name, p = prepend ++ folder :: path ∧ FileIn entries (folder :: path) name c ∧
        Matches accept name := by
  induction n generalizing prepend entries with
  | zero => cases entries <;> simp at hn
  | succ n ih =>
    cases entries with
    | nil =>
      rw [belowFiles]
      simp only [List.not_mem_nil, false_iff]
      rintro ⟨f, pa, name, _, h, _⟩
      cases h with
      | inside h _ => cases h
    | cons e es =>
      have hes := ih (prepend := prepend) (entries := es) (by simp at hn; omega)
      cases e with
      | file name content =>
        rw [belowFiles, hes]
        constructor
        · rintro ⟨f, pa, nm, h1, h2, h3⟩
          cases h2 with
          | inside h2 h2' => exact ⟨f, pa, nm, h1, .inside (List.mem_cons_of_mem _ h2) h2', h3⟩
        · rintro ⟨f, pa, nm, h1, h2, h3⟩
          cases h2 with
          | inside h2 h2' =>
            rcases List.mem_cons.1 h2 with h2 | h2
            · cases h2
            · exact ⟨f, pa, nm, h1, .inside h2 h2', h3⟩
      | dir fo sub =>
        rw [belowFiles, List.mem_append, List.mem_append, hes, mem_directFiles,
          ih (prepend := prepend ++ [fo]) (entries := sub) (by simp at hn; omega)]
        constructor
        · rintro ((⟨rfl, nm, h1, h2⟩ | ⟨f, pa, nm, rfl, h2, h3⟩) | ⟨f, pa, nm, rfl, h2, h3⟩)
          · exact ⟨fo, [], nm, rfl, .inside (List.mem_cons_self ..) (.here h1), h2⟩
          · exact ⟨fo, f :: pa, nm, by simp, .inside (List.mem_cons_self ..) h2, h3⟩
          · cases h2 with
            | inside h2 h2' => exact ⟨f, pa, nm, rfl, .inside (List.mem_cons_of_mem _ h2) h2', h3⟩
        · rintro ⟨f, pa, nm, rfl, h2, h3⟩
          cases h2 with
          | inside h2 h2' =>
            rcases List.mem_cons.1 h2 with h2 | h2
            · cases h2
              cases h2' with
              | here h => exact Or.inl (Or.inl ⟨rfl, nm, h, h3⟩)
              | inside h h' => exact Or.inl (Or.inr ⟨_, _, nm, by simp, .inside h h', h3⟩)
            · exact Or.inr ⟨f, pa, nm, rfl, .inside h2 h2', h3⟩

theorem mem_allFiles {accept : Name → Bool} {prepend : List Name} {entries : List (Entry V)}
    {p : List Name} {c : Py (DS V)} : (p, c) ∈ allFiles accept prepend entries ↔
      ∃ path name, p = prepend ++ path ∧ FileIn entries path name c ∧ Matches accept name := by
  unfold allFiles
  rw [List.mem_append, mem_directFiles, mem_belowFiles _ le_rfl]
  constructor
  · rintro (⟨rfl, nm, h1, h2⟩ | ⟨f, pa, nm, rfl, h2, h3⟩)
    · exact ⟨[], nm, by simp, .here h1, h2⟩
    · exact ⟨_, nm, rfl, h2, h3⟩
  · rintro ⟨path, nm, rfl, h2, h3⟩
    cases h2 with
    | here h => exact Or.inl ⟨by simp, nm, h, h3⟩
    | inside h h' => exact Or.inr ⟨_, _, nm, rfl, .inside h h', h3⟩

theorem mem_fileCodings {l : List (List Name × Py (DS V))}
    (hl : ∀ p ds, (p, .ok ds) ∈ l → IsDict2 ds.items) {label m : Name} {v : V} :
    ((label, m), v) ∈ fileCodings l ↔
      ∃ p ds item, (p, .ok ds) ∈ l ∧ Has ds.items item m v ∧ label = joinComma (p ++ [item]) := by
  unfold fileCodings
  rw [List.mem_flatMap]
  constructor
  · rintro ⟨⟨p, c⟩, hx, hm⟩
    cases c with
    | error e => simp at hm
    | ok ds =>
      simp only [pflat, flat, List.mem_flatMap, List.mem_map] at hm
      obtain ⟨it, ⟨it0, hit, rfl⟩, c, hc, he⟩ := hm
      simp only [Prod.mk.injEq] at he
      obtain ⟨⟨rfl, rfl⟩, rfl⟩ := he
      exact ⟨p, ds, it0.1, hx, (mem_flat (hl p ds hx)).1
        (List.mem_flatMap.2 ⟨it0, hit, List.mem_map.2 ⟨c, hc, rfl⟩⟩), rfl⟩
  · rintro ⟨p, ds, item, hx, ⟨cs, h1, h2⟩, rfl⟩
    refine ⟨_, hx, ?_⟩
    simp only [pflat, flat, List.mem_flatMap, List.mem_map]
    exact ⟨_, ⟨_, dictGet_mem h1, rfl⟩, _, dictGet_mem h2, rfl⟩

theorem shuffle_stems {accept : Name → Bool} {l l' : List (Entry V)} (h : Shuffle l l') :
    (stems accept l).Perm (stems accept l') := by
  induction h with
  | nil => exact List.Perm.refl _
  | file name content _ ih =>
    rw [stems, stems]
    split
    · exact ih.cons _
    · exact ih
  | dir name _ _ _ ih => rw [stems, stems]; exact ih
  | swap a b l =>
    cases a <;> cases b <;> simp only [stems]
    · split <;> split
      · exact List.Perm.swap ..
      all_goals exact List.Perm.refl _
    all_goals exact List.Perm.refl _
  | trans _ _ ih1 ih2 => exact ih1.trans ih2

theorem shuffle_direct {accept : Name → Bool} {l l' : List (Entry V)} (h : Shuffle l l')
    (prepend : List Name) :
    (directFiles accept prepend l).Perm (directFiles accept prepend l') := by
  induction h with
  | nil => exact List.Perm.refl _
  | file name content _ ih =>
    rw [directFiles, directFiles]
    split
    · exact ih.cons _
    · exact ih
  | dir name _ _ _ ih => rw [directFiles, directFiles]; exact ih
  | swap a b l =>
    cases a <;> cases b <;> simp only [directFiles]
    · split <;> split
      · exact List.Perm.swap ..
      all_goals exact List.Perm.refl _
    all_goals exact List.Perm.refl _
  | trans _ _ ih1 ih2 => exact ih1.trans ih2

theorem perm_swap3 {α : Type _} (a b c : List α) : (a ++ (b ++ c)).Perm (b ++ (a ++ c)) := by
  rw [← List.append_assoc, ← List.append_assoc]
  exact List.perm_append_comm.append_right _

theorem shuffle_below {accept : Name → Bool} {l l' : List (Entry V)} (h : Shuffle l l')
    (prepend : List Name) :
    (belowFiles accept prepend l).Perm (belowFiles accept prepend l') := by
  induction h generalizing prepend with
  | nil => exact List.Perm.refl _
  | file name content _ ih => rw [belowFiles, belowFiles]; exact ih prepend
  | dir name hs _ ih1 ih2 =>
    rw [belowFiles, belowFiles]
    exact ((shuffle_direct hs _).append (ih1 _)).append (ih2 _)
  | swap a b l =>
    cases a <;> cases b <;> simp only [belowFiles]
    all_goals first
      | exact List.Perm.refl _
      | exact perm_swap3 _ _ _
  | trans _ _ ih1 ih2 => exact (ih1 _).trans (ih2 _)

theorem shuffle_all {accept : Name → Bool} {l l' : List (Entry V)} (h : Shuffle l l')
    (prepend : List Name) : (allFiles accept prepend l).Perm (allFiles accept prepend l') :=
  (shuffle_direct h _).append (shuffle_below h _)

theorem shuffle_symm {l l' : List (Entry V)} (h : Shuffle l l') : Shuffle l' l := by
  induction h with
  | nil => exact .nil
  | file name content _ ih => exact .file name content ih
  | dir name _ _ ih1 ih2 => exact .dir name ih1 ih2
  | swap a b l => exact .swap b a l
  | trans _ _ ih1 ih2 => exact .trans ih2 ih1

theorem shuffle_refl (n : ℕ) (l : List (Entry V)) (hn : sizeOf l ≤ n) : Shuffle l l := by
  induction n generalizing l with
  | zero => cases l <;> simp at hn
  | succ n ih =>
    cases l with
    | nil => exact .nil
    | cons e es =>
      have := ih es (by simp at hn; omega)
      cases e with
      | file name content => exact .file name content this
      | dir name sub => exact .dir name (ih sub (by simp at hn; omega)) this

/-- Each folder of a shuffled tree is a shuffled folder of the tree. -/
theorem shuffle_dirs {l l' : List (Entry V)} (h : Shuffle l l') {folder : Name}
    {sub' : List (Entry V)} (hm : Entry.dir folder sub' ∈ l') :
    ∃ sub, Entry.dir folder sub ∈ l ∧ Shuffle sub sub' := by
  induction h generalizing sub' with
  | nil => cases hm
  | file name content _ ih =>
    rcases List.mem_cons.1 hm with hm | hm
    · cases hm
    · obtain ⟨sub, h1, h2⟩ := ih hm
      exact ⟨sub, List.mem_cons_of_mem _ h1, h2⟩
  | dir name hs _ _ ih =>
    rcases List.mem_cons.1 hm with hm | hm
    · cases hm
      exact ⟨_, List.mem_cons_self .., hs⟩
    · obtain ⟨sub, h1, h2⟩ := ih hm
      exact ⟨sub, List.mem_cons_of_mem _ h1, h2⟩
  | swap a b l =>
    refine ⟨sub', ?_, shuffle_refl _ _ le_rfl⟩
    simp only [List.mem_cons] at hm ⊢
    tauto
  | trans _ _ ih1 ih2 =>
    obtain ⟨s1, a1, a2⟩ := ih2 hm
    obtain ⟨s2, b1, b2⟩ := ih1 a1
    exact ⟨s2, b1, b2.trans a2⟩

theorem shuffle_noStemClash {accept : Name → Bool} {l l' : List (Entry V)} (h : Shuffle l l')
    (hc : NoStemClash accept l) : NoStemClash accept l' := by
  intro inner hi
  induction hi generalizing l with
  | self => exact (shuffle_stems h).nodup_iff.1 (hc _ .self)
  | inside hm _ ih =>
    obtain ⟨sub, h1, h2⟩ := shuffle_dirs h hm
    exact ih h2 (noStemClash_inside hc h1)

/-! ## Different codings -/

/-- As `directFiles`, with the file names. -/
def directTagged (accept : Name → Bool) (prepend : List Name) :
    List (Entry V) → List ((List Name × Name) × Py (DS V))
  | [] => []
  | .file name content :: rest =>
    if Matches accept name then ((prepend, name), content) :: directTagged accept prepend rest
    else directTagged accept prepend rest
  | .dir _ _ :: rest => directTagged accept prepend rest

/-- As `belowFiles`, with the file names. -/
def belowTagged (accept : Name → Bool) (prepend : List Name) :
    List (Entry V) → List ((List Name × Name) × Py (DS V))
  | [] => []
  | .file _ _ :: rest => belowTagged accept prepend rest
  | .dir name entries :: rest =>
    (directTagged accept (prepend ++ [name]) entries ++ belowTagged accept (prepend ++ [name]) entries) ++
      belowTagged accept prepend rest

theorem directTagged_map (accept : Name → Bool) (prepend : List Name) (l : List (Entry V)) :
    (directTagged accept prepend l).map (fun x => (x.1.1, x.2)) = directFiles accept prepend l := by
  induction l with
  | nil => rfl
  | cons e es ih =>
    cases e with
    | dir n s => exact ih
    | file name content =>
      rw [directTagged, directFiles]
      split
      · rw [List.map_cons, ih]
      · exact ih

theorem belowTagged_map (accept : Name → Bool) (n : ℕ) (prepend : List Name) (l : List (Entry V))
    (hn : sizeOf l ≤ n) :
    (belowTagged accept prepend l).map (fun x => (x.1.1, x.2)) = belowFiles accept prepend l := by
  induction n generalizing prepend l with
  | zero => cases l <;> simp at hn
  | succ n ih =>
    cases l with
    | nil => rw [belowTagged, belowFiles]; rfl
    | cons e es =>
      have hes := ih prepend es (by simp at hn; omega)
      cases e with
      | file name content => rw [belowTagged, belowFiles]; exact hes
      | dir name sub =>
        rw [belowTagged, belowFiles, List.map_append, List.map_append, directTagged_map, hes,
          ih _ sub (by simp at hn; omega)]

theorem mem_directTagged {accept : Name → Bool} {prepend : List Name} {l : List (Entry V)}
    {x : (List Name × Name) × Py (DS V)} (h : x ∈ directTagged accept prepend l) :
    x.1.1 = prepend ∧ Entry.file x.1.2 x.2 ∈ l ∧ Matches accept x.1.2 := by
  induction l with
  | nil => cases h
  | cons e es ih =>
    cases e with
    | dir n s => exact ⟨(ih h).1, List.mem_cons_of_mem _ (ih h).2.1, (ih h).2.2⟩
    | file name content =>
      rw [directTagged] at h
      split at h
      · rename_i hm
        rcases List.mem_cons.1 h with rfl | h
        · exact ⟨rfl, List.mem_cons_self .., hm⟩
        · exact ⟨(ih h).1, List.mem_cons_of_mem _ (ih h).2.1, (ih h).2.2⟩
      · exact ⟨(ih h).1, List.mem_cons_of_mem _ (ih h).2.1, (ih h).2.2⟩

theorem mem_belowTagged {accept : Name → Bool} (n : ℕ) {prepend : List Name} {l : List (Entry V)}
    (hn : sizeOf l ≤ n) {x : (List Name × Name) × Py (DS V)} (h : x ∈ belowTagged accept prepend l) :
    ∃ folder sub path, x.1.1 = prepend ++ folder :: path ∧ Entry.dir folder sub ∈ l ∧
      FileIn sub path x.1.2 x.2 ∧ Matches accept x.1.2 := by
  induction n generalizing prepend l with
  | zero => cases l <;> simp at hn
  | succ n ih =>
    cases l with
    | nil => rw [belowTagged] at h; cases h
    | cons e es =>
      have hes := ih (prepend := prepend) (l := es) (by simp at hn; omega)
      cases e with
      | file name content =>
        rw [belowTagged] at h
        obtain ⟨f, s, p, a1, a2, a3⟩ := hes h
        exact ⟨f, s, p, a1, List.mem_cons_of_mem _ a2, a3⟩
      | dir name sub =>
        rw [belowTagged, List.mem_append, List.mem_append] at h
        rcases h with (h | h) | h
        · obtain ⟨a1, a2, a3⟩ := mem_directTagged h
          exact ⟨name, sub, [], a1, List.mem_cons_self .., .here a2, a3⟩
        · obtain ⟨f, s, p, a1, a2, a3, a4⟩ := ih (by simp at hn; omega) h
          exact ⟨name, sub, f :: p, by rw [a1]; simp, List.mem_cons_self .., .inside a2 a3, a4⟩
        · obtain ⟨f, s, p, a1, a2, a3⟩ := hes h
          exact ⟨f, s, p, a1, List.mem_cons_of_mem _ a2, a3⟩

theorem namesDistinct_inside {entries sub : List (Entry V)} {folder : Name}
    (h : NamesDistinct entries) (hm : Entry.dir folder sub ∈ entries) : NamesDistinct sub :=
  fun inner hi => h inner (.inside hm hi)

theorem directTagged_nodup {accept : Name → Bool} {prepend : List Name} {l : List (Entry V)}
    (h : (l.map entryName).Nodup) : ((directTagged accept prepend l).map Prod.fst).Nodup := by
  induction l with
  | nil => exact List.nodup_nil
  | cons e es ih =>
    rw [List.map_cons, List.nodup_cons] at h
    cases e with
    | dir n s => exact ih h.2
    | file name content =>
      rw [directTagged]
      split
      · rw [List.map_cons, List.nodup_cons]
        refine ⟨?_, ih h.2⟩
        intro hx
        obtain ⟨x, hx, he⟩ := List.mem_map.1 hx
        have := mem_directTagged hx
        rw [he] at this
        exact h.1 (List.mem_map.2 ⟨_, this.2.1, rfl⟩)
      · exact ih h.2

theorem belowTagged_nodup {accept : Name → Bool} (n : ℕ) {prepend : List Name} {l : List (Entry V)}
    (hn : sizeOf l ≤ n) (h : (l.map entryName).Nodup)
    (hsub : ∀ folder sub, Entry.dir folder sub ∈ l → NamesDistinct sub) :
    ((belowTagged accept prepend l).map Prod.fst).Nodup := by
  induction n generalizing prepend l with
  | zero => cases l <;> simp at hn
  | succ n ih =>
    cases l with
    | nil => rw [belowTagged]; exact List.nodup_nil
    | cons e es =>
      rw [List.map_cons, List.nodup_cons] at h
      have hes := ih (prepend := prepend) (l := es) (by simp at hn; omega) h.2
        (fun f s hm => hsub f s (List.mem_cons_of_mem _ hm))
      cases e with
      | file name content => rw [belowTagged]; exact hes
      | dir name sub =>
        have hd := hsub name sub (List.mem_cons_self ..)
        have h1 := directTagged_nodup (accept := accept) (prepend := prepend ++ [name]) (hd sub .self)
        have h2 := ih (prepend := prepend ++ [name]) (l := sub) (by simp at hn; omega) (hd sub .self)
          (fun f s hm => namesDistinct_inside hd hm)
        rw [belowTagged, List.map_append, List.map_append, List.nodup_append, List.nodup_append]
        refine ⟨⟨h1, h2, ?_⟩, hes, ?_⟩
        · intro a ha b hb hab
          subst hab
          obtain ⟨x, hx, rfl⟩ := List.mem_map.1 ha
          obtain ⟨y, hy, he⟩ := List.mem_map.1 hb
          obtain ⟨f, s, p, a1, _⟩ := mem_belowTagged _ le_rfl hy
          rw [he, (mem_directTagged hx).1] at a1
          have := congrArg List.length a1
          simp at this
        · intro a ha b hb hab
          subst hab
          obtain ⟨y, hy, he⟩ := List.mem_map.1 hb
          obtain ⟨f, s, p, a1, a2, _⟩ := mem_belowTagged _ le_rfl hy
          rw [he] at a1
          have hne : f ≠ name := by
            rintro rfl
            exact h.1 (List.mem_map.2 ⟨_, a2, rfl⟩)
          have hpre : ∃ q, a.1 = prepend ++ name :: q := by
            rw [List.mem_append] at ha
            rcases ha with ha | ha
            · obtain ⟨x, hx, rfl⟩ := List.mem_map.1 ha
              exact ⟨[], (mem_directTagged hx).1⟩
            · obtain ⟨x, hx, rfl⟩ := List.mem_map.1 ha
              obtain ⟨f', s', p', b1, _⟩ := mem_belowTagged _ le_rfl hx
              exact ⟨f' :: p', by rw [b1]; simp⟩
          obtain ⟨q, hq⟩ := hpre
          rw [hq] at a1
          have := List.append_cancel_left a1
          exact hne (List.cons.inj this).1.symm

/-- If no two codings get the same label and coder, the list of codings has no duplicate key. -/
theorem fileCodings_nodup {accept : Name → Bool} {prepend : List Name} {entries : List (Entry V)}
    (hn : NamesDistinct entries)
    (hd : ∀ path name ds, FileIn entries path name (.ok ds) → Matches accept name → IsDict2 ds.items)
    (hu : ∀ label m v v' p n i p' n' i', CodingIn accept prepend entries label m v p n i →
      CodingIn accept prepend entries label m v' p' n' i' → p = p' ∧ n = n' ∧ i = i') :
    ((fileCodings (allFiles accept prepend entries)).map Prod.fst).Nodup := by
  have hall : allFiles accept prepend entries =
      (directTagged accept prepend entries ++ belowTagged accept prepend entries).map
        (fun x => (x.1.1, x.2)) := by
    rw [List.map_append, directTagged_map, belowTagged_map _ _ _ _ le_rfl]
    rfl
  have hmem : ∀ x ∈ directTagged accept prepend entries ++ belowTagged accept prepend entries,
      ∃ path, x.1.1 = prepend ++ path ∧ FileIn entries path x.1.2 x.2 ∧ Matches accept x.1.2 := by
    intro x hx
    rw [List.mem_append] at hx
    rcases hx with hx | hx
    · obtain ⟨a1, a2, a3⟩ := mem_directTagged hx
      exact ⟨[], by simpa using a1, .here a2, a3⟩
    · obtain ⟨f, s, p, a1, a2, a3, a4⟩ := mem_belowTagged _ le_rfl hx
      exact ⟨f :: p, a1, .inside a2 a3, a4⟩
  have hnd : ((directTagged accept prepend entries ++ belowTagged accept prepend entries).map
      Prod.fst).Nodup := by
    rw [List.map_append, List.nodup_append]
    refine ⟨directTagged_nodup (hn entries .self), belowTagged_nodup _ le_rfl (hn entries .self)
      (fun f s hm => namesDistinct_inside hn hm), ?_⟩
    intro a ha b hb hab
    subst hab
    obtain ⟨x, hx, rfl⟩ := List.mem_map.1 ha
    obtain ⟨y, hy, he⟩ := List.mem_map.1 hb
    obtain ⟨f, s, p, a1, _⟩ := mem_belowTagged _ le_rfl hy
    rw [he, (mem_directTagged hx).1] at a1
    have := congrArg List.length a1
    simp at this
  rw [hall]
  generalize directTagged accept prepend entries ++ belowTagged accept prepend entries = L at hmem hnd
  -- the codings of one file
  have hone : ∀ x ∈ L, ∀ ds, x.2 = .ok ds → ∀ y ∈ pflat (some x.1.1) ds.items,
      ∃ path item, x.1.1 = prepend ++ path ∧
        CodingIn accept prepend entries y.1.1 y.1.2 y.2 path x.1.2 item := by
    intro x hx ds hds y hy
    obtain ⟨path, a1, a2, a3⟩ := hmem x hx
    rw [hds] at a2
    simp only [pflat, flat, List.mem_flatMap, List.mem_map] at hy
    obtain ⟨it, ⟨it0, hit, rfl⟩, c, hc, rfl⟩ := hy
    refine ⟨path, it0.1, a1, ds, a2, a3, ?_, ?_⟩
    · exact (mem_flat (hd path _ ds a2 a3)).1
        (List.mem_flatMap.2 ⟨it0, hit, List.mem_map.2 ⟨c, hc, rfl⟩⟩)
    · show joinComma (x.1.1 ++ [it0.1]) = _
      rw [a1]
  unfold fileCodings
  rw [List.flatMap_map, List.map_flatMap, List.nodup_flatMap]
  constructor
  · intro x hx
    cases hds : x.2 with
    | error e => simp
    | ok ds =>
      simp only
      obtain ⟨path, a1, a2, a3⟩ := hmem x hx
      rw [hds] at a2
      have hdd := hd path _ ds a2 a3
      unfold pflat flat
      rw [List.flatMap_map, List.map_flatMap, List.nodup_flatMap]
      constructor
      · intro it hit
        rw [List.map_map]
        have : (Prod.fst ∘ fun c : Name × V => ((DS.prefixed (some x.1.1) it.1, c.1), c.2)) =
            (fun m => (DS.prefixed (some x.1.1) it.1, m)) ∘ Prod.fst := rfl
        rw [this, ← List.map_map]
        exact (hdd.2 it hit).map (fun a b h => (Prod.mk.inj h).2)
      · have hp : ds.items.Pairwise (fun a b => a.1 ≠ b.1) := List.pairwise_map.1 hdd.1
        refine hp.imp_of_mem ?_
        intro a b ha hb hab z hz hz'
        simp only [List.map_map, List.mem_map, Function.comp_apply] at hz hz'
        obtain ⟨c, hc, rfl⟩ := hz
        obtain ⟨c', hc', he⟩ := hz'
        simp only [Prod.mk.injEq] at he
        have k1 : CodingIn accept prepend entries (DS.prefixed (some x.1.1) a.1) c.1 c.2 path x.1.2 a.1 :=
          ⟨ds, a2, a3, (mem_flat hdd).1
            (List.mem_flatMap.2 ⟨a, ha, List.mem_map.2 ⟨c, hc, rfl⟩⟩), by
              show joinComma (x.1.1 ++ [a.1]) = _; rw [a1]⟩
        have k2 : CodingIn accept prepend entries (DS.prefixed (some x.1.1) b.1) c'.1 c'.2 path x.1.2 b.1 :=
          ⟨ds, a2, a3, (mem_flat hdd).1
            (List.mem_flatMap.2 ⟨b, hb, List.mem_map.2 ⟨c', hc', rfl⟩⟩), by
              show joinComma (x.1.1 ++ [b.1]) = _; rw [a1]⟩
        rw [he.1, he.2] at k2
        exact hab (hu _ _ _ _ _ _ _ _ _ _ k1 k2).2.2
  · have hp : L.Pairwise (fun a b => a.1 ≠ b.1) := List.pairwise_map.1 hnd
    refine hp.imp_of_mem ?_
    intro a b ha hb hab z hz hz'
    obtain ⟨y, hy, rfl⟩ := List.mem_map.1 hz
    obtain ⟨y', hy', he⟩ := List.mem_map.1 hz'
    cases hda : a.2 with
    | error e => simp [hda] at hy
    | ok ds =>
      cases hdb : b.2 with
      | error e => simp [hdb] at hy'
      | ok ds' =>
        simp only [hda] at hy
        simp only [hdb] at hy'
        obtain ⟨p, i, e1, k1⟩ := hone a ha ds hda y hy
        obtain ⟨p', i', e2, k2⟩ := hone b hb ds' hdb y' hy'
        rw [he] at k2
        obtain ⟨rfl, hname, _⟩ := hu _ _ _ _ _ _ _ _ _ _ k1 k2
        exact hab (Prod.ext (e1.trans e2.symm) hname)

end SegEval
