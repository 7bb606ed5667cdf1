import Verif.Lemmas.Text

namespace SegEval

open Spec

/-! ## The reader on the text, character by character -/

/-- What the reader does after a line that leaves it as `r`. -/
def csvNext (delim : Char) (r : CsvReader) (lines : List Name) : List (List Name) × Option PyErr :=
  if r.state = .startRecord then
    (r.fields :: (csvRows delim lines {}).1, (csvRows delim lines {}).2)
  else csvRows delim lines r

/-- The reader in the middle of a line, with the text that is left. -/
def csvText (delim : Char) : Name → CsvReader → List (List Name) × Option PyErr
  | [], r => csvNext delim (csvEnd r) []
  | c :: cs, r =>
    match csvChar delim r c with
    | .error e => ([], some e)
    | .ok r' => if c = '\n' then csvNext delim (csvEnd r') (fileLines cs) else csvText delim cs r'

/-- The lines, given the beginning `w` of the first. -/
theorem fileLines_ne_nil (c : Char) (cs : Name) : fileLines (c :: cs) ≠ [] := by
  rw [fileLines]
  split
  · simp
  · split <;> simp

theorem csvRows_cons (delim : Char) (line : Name) (lines : List Name) (r : CsvReader) :
    csvRows delim (line :: lines) r = match forLoop line r (csvChar delim) with
      | .error e => ([], some e)
      | .ok r' => csvNext delim (csvEnd r') lines := by
  rw [csvRows, csvLine]
  cases forLoop line r (csvChar delim) <;> rfl

theorem csvRows_text (delim : Char) (c : Char) (cs : Name) (r : CsvReader) :
    csvRows delim (fileLines (c :: cs)) r = csvText delim (c :: cs) r := by
  induction cs generalizing c r with
  | nil =>
    by_cases hc : c = '\n'
    · rw [fileLines, if_pos hc, csvRows_cons, forLoop, csvText]
      cases csvChar delim r c with
      | error e => rfl
      | ok r' => simp only [forLoop, if_pos hc]
    · rw [fileLines, if_neg hc, fileLines]
      simp only
      rw [csvRows_cons, forLoop, csvText]
      cases csvChar delim r c with
      | error e => rfl
      | ok r' => simp only [forLoop, if_neg hc, csvText]
  | cons d ds ih =>
    by_cases hc : c = '\n'
    · rw [fileLines, if_pos hc, csvRows_cons, forLoop, csvText]
      cases csvChar delim r c with
      | error e => rfl
      | ok r' => simp only [forLoop, if_pos hc]
    · rw [fileLines, if_neg hc, csvText]
      cases hl : fileLines (d :: ds) with
      | nil => exact absurd hl (fileLines_ne_nil d ds)
      | cons l ls =>
        simp only
        rw [csvRows_cons, forLoop]
        cases hch : csvChar delim r c with
        | error e => rfl
        | ok r' =>
          simp only [if_neg hc]
          rw [← ih, hl, csvRows_cons]

theorem csvRows_nil (delim : Char) : csvRows delim [] {} = ([], none) := by
  simp [csvRows]

/-! ## Reading what was written -/

/-- The reader before a cell, having read the cells `fields` of the row. -/
structure Ready (r : CsvReader) (cells : List Name) : Prop where
  field : r.field = []
  fields : r.fields = cells
  state : r.state = .startField ∨ (r.state = .startRecord ∧ cells = [])

/-- The reader after a cell: the cell is in the field. -/
structure Done (r : CsvReader) (cells : List Name) : Prop where
  fields : r.fields ++ [r.field] = cells
  state : r.state = .inField ∨ r.state = .quoteInQuoted ∨ (r.state = .startField ∧ r.field = [])

theorem plain_loop {delim : Char} {r : CsvReader} (hs : r.state = .inField) (w t : Name)
    (hw : ∀ c ∈ w, c ≠ delim ∧ c ≠ '\n' ∧ c ≠ '\r' ∧ c ≠ '\x00')
    (hl : r.field.length + w.length ≤ 131072) :
    csvText delim (w ++ t) r = csvText delim t { r with field := r.field ++ w } := by
  induction w generalizing r with
  | nil => simp
  | cons c cs ih =>
    obtain ⟨h1, h2, h3, h4⟩ := hw c (by simp)
    rw [List.length_cons] at hl
    rw [List.cons_append, csvText, csvChar, if_neg h4, hs]
    simp only
    rw [if_neg (by tauto), if_neg h1, CsvReader.push, if_neg (by omega)]
    simp only
    rw [if_neg h2, ih (by rfl) (fun x hx => hw x (by simp [hx])) (by simp; omega)]
    simp

theorem quoted_loop {delim : Char} {r : CsvReader} (hs : r.state = .inQuoted) (cell t : Name)
    (hw : ∀ c ∈ cell, c ≠ '\r' ∧ c ≠ '\x00') (hl : r.field.length + cell.length ≤ 131072) :
    csvText delim (doubled cell ++ '"' :: t) r =
      csvText delim t { r with state := .quoteInQuoted, field := r.field ++ cell } := by
  induction cell generalizing r with
  | nil =>
    rw [doubled, List.nil_append, csvText, csvChar, if_neg (by decide), hs]
    simp
  | cons c cs ih =>
    obtain ⟨h1, h2⟩ := hw c (by simp)
    rw [List.length_cons] at hl
    rw [doubled]
    split_ifs with hq
    · rw [List.cons_append, csvText, csvChar, if_neg (by decide), hs]
      simp only [if_true]
      rw [if_neg (by decide), List.cons_append, csvText, csvChar, if_neg (by decide)]
      simp only [if_true]
      rw [CsvReader.push, if_neg (by simp only; omega)]
      simp only
      rw [if_neg (by decide), ih rfl (fun x hx => hw x (by simp [hx])) (by simp; omega)]
      simp [hq]
    · rw [List.cons_append, csvText, csvChar, if_neg h2, hs]
      simp only
      rw [if_neg hq, CsvReader.push, if_neg (by omega)]
      simp only
      split_ifs with hn
      · have he : csvEnd { r with state := .inQuoted, field := r.field ++ [c] } =
            { r with state := .inQuoted, field := r.field ++ [c] } := rfl
        rw [he, csvNext, if_neg (by simp)]
        have := ih (r := { r with state := .inQuoted, field := r.field ++ [c] }) rfl
          (fun x hx => hw x (by simp [hx])) (by simp; omega)
        have hrow : ∀ s r', s ≠ [] → csvRows delim (fileLines s) r' = csvText delim s r' := by
          intro s r' hs
          cases s with
          | nil => exact absurd rfl hs
          | cons a b => exact csvRows_text delim a b r'
        rw [hrow _ _ (by simp), this]
        simp
      · rw [ih rfl (fun x hx => hw x (by simp [hx])) (by simp; omega)]
        simp

theorem cell_text {delim : Char} (hd : Delimiter delim) {cell w : Name} (hw : WrittenCell delim cell w)
    {r : CsvReader} {fields : List Name} (hr : Ready r fields) (hne : w ≠ [] ∨ r.state = .startField)
    (t : Name) : ∃ r', csvText delim (w ++ t) r = csvText delim t r' ∧ Done r' (fields ++ [cell]) := by
  obtain ⟨d1, d2, d3, d4⟩ := hd
  cases hw with
  | plain h1 h2 h3 =>
    cases cell with
    | nil =>
      refine ⟨r, rfl, ?_, ?_⟩
      · rw [hr.fields, hr.field]
      · rcases hne with h | h
        · exact absurd rfl h
        · exact Or.inr (Or.inr ⟨h, hr.field⟩)
    | cons c cs =>
      obtain ⟨e1, e2, e3, e4⟩ := h1 c (by simp)
      have hq : c ≠ '"' := by simpa using h2
      have hchar : csvChar delim r c = .ok { r with state := .inField, field := [c] } := by
        have hf : csvField delim r c = .ok { r with state := .inField, field := [c] } := by
          rw [csvField, if_neg (by tauto), if_neg hq, if_neg e1, CsvReader.push, hr.field]
          simp
        rw [csvChar, if_neg e4]
        rcases hr.state with h | ⟨h, _⟩
        · rw [h]; exact hf
        · rw [h]; simp only; rw [if_neg (by tauto)]; exact hf
      refine ⟨{ r with state := .inField, field := c :: cs }, ?_, ?_, Or.inl rfl⟩
      · rw [List.cons_append, csvText, hchar]
        simp only
        rw [if_neg e2, plain_loop rfl cs t (fun x hx => h1 x (by simp [hx]))
          (by simp only [List.length_cons, List.length_nil] at h3 ⊢; omega)]
        rfl
      · simp [hr.fields]
  | quoted h1 h2 =>
    have hchar : csvChar delim r '"' = .ok { r with state := .inQuoted } := by
      have hf : csvField delim r '"' = .ok { r with state := .inQuoted } := by
        rw [csvField, if_neg (by decide), if_pos rfl]
      rw [csvChar, if_neg (by decide)]
      rcases hr.state with h | ⟨h, _⟩
      · rw [h]; exact hf
      · rw [h]; simp only; rw [if_neg (by decide)]; exact hf
    refine ⟨{ r with state := .quoteInQuoted, field := cell }, ?_, ?_, Or.inr (Or.inl rfl)⟩
    · rw [List.append_assoc, List.cons_append, csvText, hchar]
      simp only
      rw [if_neg (by decide), List.cons_append, List.nil_append, quoted_loop rfl cell t h1
        (by simp only [hr.field, List.length_nil]; omega)]
      simp [hr.field]
    · simp [hr.fields]

theorem delim_text {delim : Char} (hd : Delimiter delim) {r : CsvReader} {fields : List Name}
    (hr : Done r fields) (t : Name) :
    ∃ r', csvText delim (delim :: t) r = csvText delim t r' ∧ Ready r' fields ∧ r'.state = .startField := by
  obtain ⟨d1, d2, d3, d4⟩ := hd
  refine ⟨r.save .startField, ?_, ⟨rfl, hr.fields, Or.inl rfl⟩, rfl⟩
  have hchar : csvChar delim r delim = .ok (r.save .startField) := by
    rw [csvChar, if_neg d4]
    rcases hr.state with h | h | ⟨h, _⟩
    · rw [h]; simp [d1, d2]
    · rw [h]; simp [d3]
    · rw [h]; simp [csvField, d1, d2, d3]
  rw [csvText, hchar]
  simp only
  rw [if_neg d1]

theorem row_text {delim : Char} (hd : Delimiter delim) {cells : List Name} {w : Name}
    (hw : WrittenRow delim cells w) {r : CsvReader} {fields : List Name} (hr : Ready r fields)
    (hne : w ≠ [] ∨ r.state = .startField) (t : Name) :
    ∃ r', csvText delim (w ++ t) r = csvText delim t r' ∧ Done r' (fields ++ cells) := by
  induction hw generalizing r fields with
  | one hc => exact cell_text hd hc hr hne t
  | @more cell w cells s hc _ ih =>
    have hfirst : ∃ r', csvText delim (w ++ delim :: (s ++ t)) r = csvText delim (s ++ t) r' ∧
        Ready r' (fields ++ [cell]) ∧ r'.state = .startField := by
      by_cases hcase : w ≠ [] ∨ r.state = .startField
      · obtain ⟨r1, e1, h1⟩ := cell_text hd hc hr hcase (delim :: (s ++ t))
        obtain ⟨r2, e2, h2, h3⟩ := delim_text hd h1 (s ++ t)
        exact ⟨r2, e1.trans e2, h2, h3⟩
      · push Not at hcase
        obtain ⟨rfl, hst⟩ := hcase
        obtain ⟨d1, d2, d3, d4⟩ := hd
        have hcell : cell = [] := by
          cases hc with
          | plain => rfl
        subst hcell
        have hstate : r.state = .startRecord := by
          rcases hr.state with h | ⟨h, _⟩
          · exact absurd h hst
          · exact h
        refine ⟨r.save .startField, ?_, ⟨rfl, ?_, Or.inl rfl⟩, rfl⟩
        · rw [List.nil_append, csvText, csvChar, if_neg d4, hstate]
          simp only
          rw [if_neg (by tauto), csvField, if_neg (by tauto), if_neg d3, if_pos rfl]
          simp only
          rw [if_neg d1]
        · simp [CsvReader.save, hr.fields, hr.field]
    obtain ⟨r1, e1, h1, h2⟩ := hfirst
    obtain ⟨r2, e2, h3⟩ := ih h1 (Or.inr h2)
    refine ⟨r2, ?_, by simpa using h3⟩
    rw [List.append_assoc, List.cons_append, e1, e2]

theorem ready_start : Ready {} [] := ⟨rfl, rfl, Or.inr ⟨rfl, rfl⟩⟩

theorem done_end {r : CsvReader} {fields : List Name} (h : Done r fields) :
    (csvEnd r).state = .startRecord ∧ (csvEnd r).fields = fields := by
  rcases h.state with hs | hs | ⟨hs, _⟩ <;> simp [csvEnd, hs, CsvReader.save, h.fields]

theorem row_end {delim : Char} (hd : Delimiter delim) {r : CsvReader} {fields : List Name}
    (h : Done r fields) (t : Name) :
    csvText delim ('\n' :: t) r =
      (fields :: (csvRows delim (fileLines t) {}).1, (csvRows delim (fileLines t) {}).2) := by
  have hchar : csvChar delim r '\n' = .ok (r.save .eatCrnl) := by
    rw [csvChar, if_neg (by decide)]
    rcases h.state with hs | hs | ⟨hs, _⟩
    · rw [hs]; simp
    · rw [hs]; simp [Ne.symm hd.1]
    · rw [hs]; simp [csvField]
  rw [csvText, hchar]
  simp only [if_true]
  have : csvEnd (r.save .eatCrnl) = { r.save .eatCrnl with state := .startRecord } := rfl
  rw [this, csvNext, if_pos rfl]
  simp [CsvReader.save, h.fields]

/-! ## Tables -/

theorem universal_append {w : Name} (h : ∀ c ∈ w, c ≠ '\r') (t : Name) :
    universalNewlines (w ++ t) = w ++ universalNewlines t := by
  induction w with
  | nil => rfl
  | cons c cs ih =>
    have hc := h c (by simp)
    have h' := ih (fun x hx => h x (by simp [hx]))
    rw [List.cons_append, universalNewlines, h', if_neg hc, List.cons_append]
    intro cs' hcs'
    exact absurd hcs' (by simp [hc])

theorem lineEnd_universal {e : Name} (h : LineEnd e) (t : Name) :
    universalNewlines (e ++ t) = '\n' :: universalNewlines t := by
  rcases h with rfl | rfl
  · exact universal_append (w := ['\n']) (by simp) t
  · rfl

theorem mem_doubled {c : Char} {s : Name} (h : c ∈ doubled s) : c ∈ s := by
  induction s with
  | nil => simp [doubled] at h
  | cons x xs ih =>
    rw [doubled] at h
    split_ifs at h with hx
    · simp only [List.mem_cons] at h
      rcases h with rfl | rfl | h
      · simp [hx]
      · simp [hx]
      · simp [ih h]
    · simp only [List.mem_cons] at h
      rcases h with rfl | h
      · simp
      · simp [ih h]

theorem cell_no_cr {delim : Char} {cell w : Name} (h : WrittenCell delim cell w) : ∀ c ∈ w, c ≠ '\r' := by
  intro c hc
  cases h with
  | plain h1 _ _ => exact (h1 c hc).2.2.1
  | quoted h1 _ =>
    simp only [List.cons_append, List.mem_cons, List.mem_append, List.not_mem_nil, or_false] at hc
    rcases hc with rfl | hc | rfl
    · decide
    · exact (h1 c (mem_doubled hc)).1
    · decide

theorem row_no_cr {delim : Char} (hd : Delimiter delim) {row : List Name} {w : Name}
    (h : WrittenRow delim row w) : ∀ c ∈ w, c ≠ '\r' := by
  induction h with
  | one hc => exact cell_no_cr hc
  | more hc _ ih =>
    intro c hm
    simp only [List.mem_append, List.mem_cons] at hm
    rcases hm with hm | rfl | hm
    · exact cell_no_cr hc c hm
    · exact hd.2.1
    · exact ih c hm

theorem csvRows_of_ne {delim : Char} {s : Name} (h : s ≠ []) (r : CsvReader) :
    csvRows delim (fileLines s) r = csvText delim s r := by
  cases s with
  | nil => exact absurd rfl h
  | cons a b => exact csvRows_text delim a b r

theorem table_text {delim : Char} (hd : Delimiter delim) {rows : List (List Name)} {text : Name}
    (h : WrittenTable delim rows text) :
    csvRows delim (fileLines (universalNewlines text)) {} = (rows, none) := by
  induction h with
  | nil => rfl
  | @last row w hw hne =>
    obtain ⟨r, e, hr⟩ := row_text hd hw ready_start (Or.inl hne) []
    have hu : universalNewlines w = w := by
      have := universal_append (row_no_cr hd hw) []
      simpa [universalNewlines] using this
    rw [List.append_nil] at e
    rw [hu, csvRows_of_ne hne, e, csvText, csvNext]
    obtain ⟨h1, h2⟩ := done_end hr
    rw [if_pos h1, h2, csvRows_nil, List.nil_append]
  | @row row w e rows t hw hne he _ ih =>
    rw [List.append_assoc, universal_append (row_no_cr hd hw), lineEnd_universal he,
      csvRows_of_ne (by simp)]
    obtain ⟨r, e', hr⟩ := row_text hd hw ready_start (Or.inl hne) ('\n' :: universalNewlines t)
    rw [e', row_end hd hr, ih, List.nil_append]
  | @blank e rows t he _ ih =>
    rw [lineEnd_universal he, csvRows_of_ne (by simp), csvText, csvChar, if_neg (by decide)]
    simp only [true_or, if_true]
    have : csvEnd { ({} : CsvReader) with state := .eatCrnl } = {} := rfl
    rw [this, csvNext, if_pos rfl, ih]

theorem nul_universal {text : Name} (h : '\x00' ∈ text) : '\x00' ∈ universalNewlines text := by
  fun_induction universalNewlines text with
  | case1 => simp at h
  | case2 cs ih => simpa using ih (by simpa using h)
  | case3 c cs hne ih =>
    rcases List.mem_cons.1 h with rfl | h
    · simp
    · simp [ih h]

end SegEval
