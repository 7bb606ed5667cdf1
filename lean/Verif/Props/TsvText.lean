import Verif.Lemmas.Csv
import Verif.Props.DataFiles

/-!
# C81, C82: TSV files as text
-/

namespace SegEval.Props

open SegEval Spec

/-! ## C81 -/

theorem inputTsvText_eq (u : Unicode) {delim : Char} (hd : Delimiter delim) {rows : List (List Name)}
    {text : Name} (h : WrittenTable delim rows text) (path : Name) :
    inputTsvText u delim path text = inputTsv (pyInt u) (nameFromFilepath path) rows := by
  unfold inputTsvText
  rw [table_text hd h]
  simp only
  cases inputTsv (pyInt u) (nameFromFilepath path) rows <;> rfl

/-- C81: `int` accepts exactly integers written with ASCII or other decimal digits, single underscores
between them, a sign and white space around, and returns their value. -/
theorem C81_int (u : Unicode) (s : Name) (n : ℤ) : pyInt u s = some n ↔ IntText u s n :=
  pyInt_iff u s n

/-- C81: the usual decimal notation is among them, and no text stands for two integers. -/
theorem C81_decimal (u : Unicode) (n : ℤ) :
    IntText u (decimal n) n ∧ ∀ s k, IntText u s n → IntText u s k → n = k := by
  refine ⟨intText_decimal u n, ?_⟩
  intro s k h1 h2
  rw [← pyInt_iff] at h1 h2
  rw [h1] at h2
  exact Option.some.inj h2

/-- C81: a table written to a file with any delimiter, plain or quoted cells and Unix or Windows line
ends loads exactly if no line after the first is blank and all cells after the first column are
integers. -/
theorem C81_loads_iff (u : Unicode) {delim : Char} (hd : Delimiter delim) (path : Name)
    {header : List Name} {rows : List (List Name)} {text : Name}
    (h : WrittenTable delim (header :: rows) text) :
    (∃ d, inputTsvText u delim path text = .ok d) ↔
      ∀ row ∈ rows, ∃ coder cells, row = coder :: cells ∧ ∀ cell ∈ cells, ∃ n, IntText u cell n := by
  rw [inputTsvText_eq u hd h, (C57_partial (pyInt u) (nameFromFilepath path) (header :: rows)).1]
  simp only [List.drop_succ_cons, List.drop_zero, pyInt_iff]
  constructor
  · intro hr row hm
    obtain ⟨h1, h2⟩ := hr row hm
    cases row with
    | nil => exact absurd rfl h1
    | cons c cs => exact ⟨c, cs, rfl, by simpa using h2⟩
  · intro hr row hm
    obtain ⟨c, cs, rfl, h2⟩ := hr row hm
    exact ⟨by simp, by simpa using h2⟩

theorem lastRow_iff {u : Unicode} {rows : List (List Name)} {table : List (Name × List ℤ)}
    (h : List.Forall₂ (fun row e => ∃ cells, row = e.1 :: cells ∧ List.Forall₂ (IntText u) cells e.2)
      rows table) (m : Name) (v : List ℤ) :
    (∃ row, lastRow rows m = some row ∧ (row.drop 1).map (pyInt u) = v.map some) ↔ LastOf table m v := by
  have hcells : ∀ {cells : List Name} {masses : List ℤ}, List.Forall₂ (IntText u) cells masses →
      cells.map (pyInt u) = masses.map some := by
    intro cells masses hc
    induction hc with
    | nil => rfl
    | cons h1 _ ih => rw [List.map_cons, List.map_cons, ih, (pyInt_iff u _ _).2 h1]
  have hrev := List.rel_reverse h
  have key : ∀ {rows : List (List Name)} {table : List (Name × List ℤ)},
      List.Forall₂ (fun row e => ∃ cells, row = e.1 :: cells ∧ List.Forall₂ (IntText u) cells e.2)
        rows table →
      ((∃ row, rows.find? (fun r => decide (r.head? = some m)) = some row ∧
          (row.drop 1).map (pyInt u) = v.map some) ↔
        ∃ before after, table = before ++ (m, v) :: after ∧ ∀ e ∈ before, e.1 ≠ m) := by
    intro rows table hf
    induction hf with
    | nil => simp
    | @cons row e rows table hr _ ih =>
      obtain ⟨cells, rfl, hc⟩ := hr
      obtain ⟨k, masses⟩ := e
      have hm := hcells hc
      by_cases hk : k = m
      · subst hk
        simp only [List.find?_cons, List.head?_cons, decide_true]
        constructor
        · rintro ⟨row, hrow, hv⟩
          cases hrow
          rw [List.drop_succ_cons, List.drop_zero, hm] at hv
          have := List.map_injective_iff.2 (Option.some_injective ℤ) hv
          subst this
          exact ⟨[], table, rfl, by simp⟩
        · rintro ⟨before, after, he, hb⟩
          cases before with
          | nil =>
            simp only [List.nil_append, List.cons.injEq, Prod.mk.injEq, true_and] at he
            obtain ⟨rfl, rfl⟩ := he
            exact ⟨_, rfl, by simpa using hm⟩
          | cons x xs =>
            simp only [List.cons_append, List.cons.injEq] at he
            exact absurd (by rw [← he.1]) (hb x (by simp))
      · have hd : decide ((k :: cells).head? = some m) = false := by simp [hk]
        simp only [List.find?_cons, hd]
        rw [ih]
        constructor
        · rintro ⟨before, after, rfl, hb⟩
          refine ⟨(k, masses) :: before, after, rfl, ?_⟩
          intro e he
          rcases List.mem_cons.1 he with rfl | he
          · exact hk
          · exact hb e he
        · rintro ⟨before, after, he, hb⟩
          cases before with
          | nil =>
            simp only [List.nil_append, List.cons.injEq, Prod.mk.injEq] at he
            exact absurd he.1.1 hk
          | cons x xs =>
            simp only [List.cons_append, List.cons.injEq] at he
            exact ⟨xs, after, he.2, fun e h => hb e (by simp [h])⟩
  unfold lastRow LastOf
  rw [key hrev]
  constructor
  · rintro ⟨b, a, he, hb⟩
    refine ⟨a.reverse, b.reverse, ?_, by simpa using hb⟩
    rw [← List.reverse_reverse table, he]
    simp
  · rintro ⟨b, a, rfl, ha⟩
    exact ⟨a.reverse, b.reverse, by simp, by simpa using ha⟩

/-- C81: a file with one line per coding, holding the coder and the masses in any notation that
stands for them, loads as one item, named after the file, with exactly those codings; of several
lines for one coder the last counts. -/
theorem C81_content (u : Unicode) {delim : Char} (hd : Delimiter delim) (path : Name)
    {header : List Name} {rows : List (List Name)} {table : List (Name × List ℤ)} {text : Name}
    (h : WrittenTable delim (header :: rows) text)
    (ht : List.Forall₂ (fun row e => ∃ cells, row = e.1 :: cells ∧ List.Forall₂ (IntText u) cells e.2)
      rows table) :
    ∃ d, inputTsvText u delim path text = .ok d ∧
      (∀ l, HasItem d.items l ↔ l = nameFromFilepath path) ∧
      ∀ l m v, Has d.items l m v ↔ l = nameFromFilepath path ∧ LastOf table m v := by
  have hl : ∃ d, inputTsvText u delim path text = .ok d := by
    rw [C81_loads_iff u hd path h]
    intro row hrow
    obtain ⟨i, hi, rfl⟩ := List.mem_iff_getElem.1 hrow
    obtain ⟨cells, hc, hcs⟩ := (List.forall₂_iff_get.1 ht).2 i hi ((List.forall₂_iff_get.1 ht).1 ▸ hi)
    refine ⟨_, cells, hc, ?_⟩
    intro cell hcell
    obtain ⟨j, hj, rfl⟩ := List.mem_iff_getElem.1 hcell
    exact ⟨_, (List.forall₂_iff_get.1 hcs).2 j hj ((List.forall₂_iff_get.1 hcs).1 ▸ hj)⟩
  obtain ⟨d, hd'⟩ := hl
  refine ⟨d, hd', ?_⟩
  rw [inputTsvText_eq u hd h] at hd'
  obtain ⟨h1, h2⟩ := (C57_partial (pyInt u) (nameFromFilepath path) (header :: rows)).2 d hd'
  refine ⟨h1, ?_⟩
  intro l m v
  rw [h2, List.drop_succ_cons, List.drop_zero, lastRow_iff ht]

/-- C81: the first line after the header that cannot be used decides the exception: KeyError if it is
blank, ValueError if one of its cells is not an integer. -/
theorem C81_raises (u : Unicode) {delim : Char} (hd : Delimiter delim) (path : Name)
    {header bad : List Name} {good rest : List (List Name)} {text : Name}
    (h : WrittenTable delim (header :: good ++ bad :: rest) text)
    (hg : ∀ row ∈ good, ∃ coder cells, row = coder :: cells ∧ ∀ cell ∈ cells, ∃ n, IntText u cell n) :
    (bad = [] → inputTsvText u delim path text = .error .keyError) ∧
    ((∃ coder cells cell, bad = coder :: cells ∧ cell ∈ cells ∧ ∀ n, ¬ IntText u cell n) →
      inputTsvText u delim path text = .error .valueError) := by
  rw [inputTsvText_eq u hd h]
  have hloop : ∀ (good : List (List Name)) (acc : List (Name × List ℤ)),
      (∀ row ∈ good, ∃ coder cells, row = coder :: cells ∧ ∀ cell ∈ cells, ∃ n, IntText u cell n) →
      ∀ e, (∀ acc, tsvRow (pyInt u) acc bad = .error e) →
        forLoop (good ++ bad :: rest) acc (tsvRow (pyInt u)) = .error e := by
    intro good
    induction good with
    | nil =>
      intro acc _ e he
      rw [List.nil_append, forLoop, he]
    | cons row rows ih =>
      intro acc hg e he
      rw [List.cons_append, forLoop]
      rcases tsvRow_cases (pyInt u) acc row with ⟨_, _, _, _, _, ht⟩ | ⟨hbad, _⟩
      · rw [ht]
        exact ih _ (fun r hr => hg r (by simp [hr])) e he
      · exfalso
        apply hbad
        obtain ⟨c, cs, rfl, hc⟩ := hg row (by simp)
        refine ⟨by simp, ?_⟩
        intro col hcol hn
        obtain ⟨n, hi⟩ := hc col (by simpa using hcol)
        rw [← pyInt_iff, hn] at hi
        cases hi
  have hfinal : ∀ e, (∀ acc, tsvRow (pyInt u) acc bad = .error e) →
      inputTsv (pyInt u) (nameFromFilepath path) (header :: good ++ bad :: rest) = .error e := by
    intro e he
    unfold inputTsv
    rw [List.cons_append, List.drop_succ_cons, List.drop_zero, hloop good [] hg e he]
  refine ⟨?_, ?_⟩
  · rintro rfl
    exact hfinal _ (fun _ => rfl)
  · rintro ⟨coder, cells, cell, rfl, hcell, hn⟩
    apply hfinal
    intro acc
    have hbad : pyInt u cell = none := by
      cases hp : pyInt u cell with
      | none => rfl
      | some n => exact absurd ((pyInt_iff u cell n).1 hp) (hn n)
    have hc := tsvCols (pyInt u) cells []
    rw [tsvRow]
    revert hc
    cases hf : forLoop cells [] (tsvCol (pyInt u)) with
    | error e => rintro ⟨rfl, _⟩; rfl
    | ok out =>
      rintro ⟨t, ht, _⟩
      exfalso
      have : pyInt u cell ∈ t.map some := by rw [← ht]; exact List.mem_map_of_mem hcell
      rw [hbad] at this
      obtain ⟨_, _, h⟩ := List.mem_map.1 this
      cases h

/-- Nothing beyond ASCII. -/
def asciiOnly : Unicode := ⟨fun _ => false, fun _ => none⟩

/-- The file `x/talk.tsv`: a header, a quoted coder with a delimiter and a quote in its name, Windows
line ends, and no end of the last line. -/
def exText : Name := ("c\t1\t2\r\n\"m \"\"\t1\"\t2\t +3\r\nn\t5").toList

def exPath : Name := ("x/talk.tsv").toList

example : (inputTsvText asciiOnly '\t' exPath exText).toOption.map DS.items =
    some [("talk".toList, [("m \"\t1".toList, [2, 3]), (nN, [5])])] := by
  decide +kernel

/-- The file meets the hypotheses. -/
example : WrittenTable '\t' ([['c'], ['1'], ['2']] :: [[("m \"\t1").toList, ['2'], [' ', '+', '3']], [nN, ['5']]])
      exText ∧
    List.Forall₂ (fun row e => ∃ cells, row = e.1 :: cells ∧ List.Forall₂ (IntText asciiOnly) cells e.2)
      [[("m \"\t1").toList, ['2'], [' ', '+', '3']], [nN, ['5']]]
      [(("m \"\t1").toList, [2, 3]), (nN, [5])] ∧ Delimiter '\t' := by
  have hp : ∀ {cell : Name}, (∀ c ∈ cell, c ≠ '\t' ∧ c ≠ '\n' ∧ c ≠ '\r' ∧ c ≠ '\x00') ∧
      cell.head? ≠ some '"' ∧ cell.length ≤ 131072 → WrittenCell '\t' cell cell := by
    rintro cell ⟨h1, h2, h3⟩; exact .plain h1 h2 h3
  refine ⟨?_, ?_, by unfold Delimiter; decide⟩
  · have r1 : WrittenRow '\t' [['c'], ['1'], ['2']] ("c\t1\t2").toList :=
      .more (w := ['c']) (hp (by decide)) (.more (w := ['1']) (hp (by decide)) (.one (hp (by decide))))
    have r2 : WrittenRow '\t' [("m \"\t1").toList, ['2'], [' ', '+', '3']]
        ("\"m \"\"\t1\"\t2\t +3").toList :=
      .more (w := ("\"m \"\"\t1\"").toList) (.quoted (cell := ("m \"\t1").toList) (by decide) (by decide))
        (.more (w := ['2']) (hp (by decide)) (.one (hp (by decide))))
    have r3 : WrittenRow '\t' [nN, ['5']] ("n\t5").toList :=
      .more (w := nN) (hp (by decide)) (.one (hp (by decide)))
    exact .row r1 (by decide) (Or.inr rfl) (.row r2 (by decide) (Or.inr rfl) (.last r3 (by decide)))
  · refine .cons ⟨_, rfl, .cons ?_ (.cons ?_ .nil)⟩ (.cons ⟨_, rfl, .cons ?_ .nil⟩ .nil) <;>
      rw [← pyInt_iff] <;> decide +kernel

/-- C81: a line that is blank but for its end, such as one at the end of the file, raises KeyError. -/
theorem C81_blank_line : inputTsvText asciiOnly '\t' exPath (exText ++ "\n\n".toList) = .error .keyError ∧
    ∃ d, inputTsvText asciiOnly '\t' exPath (exText ++ "\n".toList) = .ok d := by
  have outcome : ∀ (r : Py (DS (List ℤ))) (e : PyErr), r.map (fun _ => ()) = .error e → r = .error e := by
    intro r e h
    cases r with
    | ok d => cases h
    | error e' => cases h; rfl
  refine ⟨outcome _ _ (by decide +kernel), ?_⟩
  have : (inputTsvText asciiOnly '\t' exPath (exText ++ "\n".toList)).toOption.isSome = true := by
    decide +kernel
  cases h : inputTsvText asciiOnly '\t' exPath (exText ++ "\n".toList) with
  | ok d => exact ⟨d, rfl⟩
  | error e => rw [h] at this; cases this

theorem csv_nul {delim : Char} {line : Name} (h : '\x00' ∈ line) (r : CsvReader) :
    ∃ e, csvLine delim r line = .error e := by
  have key : ∀ (line : Name) (r : CsvReader), '\x00' ∈ line → ∃ e, forLoop line r (csvChar delim) = .error e := by
    intro line
    induction line with
    | nil => intro r h; simp at h
    | cons c cs ih =>
      intro r h
      rw [forLoop]
      cases hc : csvChar delim r c with
      | error e => exact ⟨e, rfl⟩
      | ok r' =>
        rcases List.mem_cons.1 h with rfl | h
        · simp [csvChar] at hc
        · exact ih r' h
  obtain ⟨e, he⟩ := key line r h
  exact ⟨e, by rw [csvLine, he]⟩

theorem csvRows_nul {delim : Char} {lines : List Name} (h : ∃ line ∈ lines, '\x00' ∈ line) (r : CsvReader) :
    ∃ e, (csvRows delim lines r).2 = some e := by
  induction lines generalizing r with
  | nil => simp at h
  | cons line lines ih =>
    rw [csvRows]
    cases hc : csvLine delim r line with
    | error e => exact ⟨e, rfl⟩
    | ok r' =>
      have hl : ∃ l ∈ lines, '\x00' ∈ l := by
        obtain ⟨l, hl, hn⟩ := h
        rcases List.mem_cons.1 hl with rfl | hl
        · obtain ⟨e, he⟩ := csv_nul (delim := delim) hn r
          rw [he] at hc
          cases hc
        · exact ⟨l, hl, hn⟩
      simp only
      split_ifs
      · exact ih hl {}
      · exact ih hl r'

theorem mem_fileLines {c : Char} {text : Name} (h : c ∈ text) : ∃ line ∈ fileLines text, c ∈ line := by
  induction text with
  | nil => simp at h
  | cons a as ih =>
    rw [fileLines]
    by_cases ha : a = '\n'
    · rw [if_pos ha]
      rcases List.mem_cons.1 h with rfl | h
      · exact ⟨[c], by simp, by simp⟩
      · obtain ⟨l, hl, hc⟩ := ih h
        exact ⟨l, by simp [hl], hc⟩
    · rw [if_neg ha]
      cases hf : fileLines as with
      | nil =>
        rcases List.mem_cons.1 h with rfl | h
        · exact ⟨[c], by simp, by simp⟩
        · obtain ⟨l, hl, hc⟩ := ih h
          rw [hf] at hl
          simp at hl
      | cons x xs =>
        rcases List.mem_cons.1 h with rfl | h
        · exact ⟨c :: x, by simp, by simp⟩
        · obtain ⟨l, hl, hc⟩ := ih h
          rw [hf] at hl
          rcases List.mem_cons.1 hl with rfl | hl
          · exact ⟨a :: l, by simp, by simp [hc]⟩
          · exact ⟨l, by simp [hl], hc⟩

/-- C81: a file with a NUL character never loads. -/
theorem C81_nul (u : Unicode) (delim : Char) (path : Name) {text : Name} (h : '\x00' ∈ text)
    (d : DS (List ℤ)) : inputTsvText u delim path text ≠ .ok d := by
  intro hd
  obtain ⟨e, he⟩ := csvRows_nul (delim := delim) (mem_fileLines (nul_universal h)) {}
  unfold inputTsvText at hd
  rw [he] at hd
  split at hd <;> cases hd

example : inputTsvText asciiOnly '\t' exPath "c\t1\nm\t2\x00".toList = .error .csvError := by
  have outcome : ∀ (r : Py (DS (List ℤ))) (e : PyErr), r.map (fun _ => ()) = .error e → r = .error e := by
    intro r e h
    cases r with
    | ok d => cases h
    | error e' => cases h; rfl
  exact outcome _ _ (by decide +kernel)

/-! ## C82 -/

theorem converted_iff (labels masses : List ℤ) :
    convertPositionsToMasses (labels.map (fun x => ⟨x, 0⟩)) = masses ↔ SameSegments labels masses := by
  have hval : (labels.map (fun x => (⟨x, 0⟩ : Obj))).map Obj.val = labels := by
    rw [List.map_map]
    exact List.map_id' labels
  unfold convertPositionsToMasses SameSegments
  rw [hval]
  by_cases hl : labels = []
  · subst hl
    simp only [runs, List.map_nil, true_and]
    constructor
    · rintro rfl; exact Or.inl rfl
    · rintro (h | ⟨pat, h, _⟩)
      · exact h.symm
      · exact absurd h.1 (by simp)
  · rw [runs_eq labels hl]
    simp only [hl, false_and, false_or, labelsMean_iff, massMeans_iff, ne_eq, not_false_eq_true, true_and,
      exists_eq_left]
    constructor
    · rintro rfl
      refine ⟨by simpa using runsPat_ne_nil 1 (changes labels), ?_, ?_⟩
      · intro m hm
        obtain ⟨k, hk, rfl⟩ := List.mem_map.1 hm
        have := runsPat_pos 1 (by decide) _ k hk
        exact Int.natCast_pos.2 this
      · have := massPat_runsPat 1 (by decide) (changes labels)
        simpa using this.symm
    · rintro ⟨h1, h2, h3⟩
      rw [h3]
      exact runsPat_massPat masses h2 h1

/-- C82: a file of positions is read as a file of masses is, and then every coding is replaced by the
masses of the segmentation that its labels describe; nothing else differs. -/
theorem C82_positions (u : Unicode) (delim : Char) (path text : Name) :
    (∀ e, inputPositionsTsvText u delim path text = .error e ↔ inputTsvText u delim path text = .error e) ∧
    ∀ d, inputTsvText u delim path text = .ok d →
      ∃ d', inputPositionsTsvText u delim path text = .ok d' ∧
        (∀ l, HasItem d'.items l ↔ HasItem d.items l) ∧
        (∀ l m masses, Has d'.items l m masses ↔
          ∃ labels, Has d.items l m labels ∧ SameSegments labels masses) ∧
        d'.coders = d.coders ∧ d'.properties = d.properties ∧ d'.boundaryFormat = d.boundaryFormat := by
  unfold inputPositionsTsvText
  cases h : inputTsvText u delim path text with
  | error e => exact ⟨fun e' => Iff.rfl, fun d hd => nomatch hd⟩
  | ok d =>
    refine ⟨fun e' => ⟨fun h => (nomatch h), fun h => (nomatch h)⟩, ?_⟩
    rintro d' hd
    cases hd
    refine ⟨_, rfl, ?_, ?_, rfl, rfl, rfl⟩
    · intro l
      unfold HasItem convertCodings
      simp only
      rw [dictGet_map]
      simp
    · intro l m masses
      unfold Has convertCodings
      simp only
      rw [dictGet_map]
      simp only [Option.map_eq_some_iff]
      constructor
      · rintro ⟨_, ⟨cs, hcs, rfl⟩, hm⟩
        rw [dictGet_map (fun v : List ℤ => convertPositionsToMasses (v.map (fun x => ⟨x, 0⟩))),
          Option.map_eq_some_iff] at hm
        obtain ⟨labels, hl, he⟩ := hm
        exact ⟨labels, ⟨cs, hcs, hl⟩, (converted_iff labels masses).1 he⟩
      · rintro ⟨labels, ⟨cs, hcs, hl⟩, hs⟩
        refine ⟨_, ⟨cs, hcs, rfl⟩, ?_⟩
        rw [dictGet_map (fun v : List ℤ => convertPositionsToMasses (v.map (fun x => ⟨x, 0⟩))), hl, Option.map_some,
          (converted_iff labels masses).2 hs]

example : ((inputPositionsTsvText asciiOnly ',' exPath "c,1\nm,1,1,2,2,2\nn,3,3,3,3,3".toList).toOption.map
      DS.items) = some [("talk".toList, [(nM, [2, 3]), (nN, [5])])] := by
  decide +kernel

end SegEval.Props
