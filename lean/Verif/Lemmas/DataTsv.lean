import Verif.Lemmas.DataJson

namespace SegEval

open Spec

theorem readCodings_error {l : List (Name × JVal)} {acc : List (Name × List JVal)} {e : PyErr}
    (h : readCodings l acc = .error e) : e = .typeError := by
  induction l generalizing acc with
  | nil => cases h
  | cons x xs ih =>
    unfold readCodings at h
    rw [forLoop] at h
    cases hj : jsonTuple x.2 with
    | error e' =>
      rw [hj] at h
      cases h
      unfold jsonTuple at hj
      split at hj <;> cases hj
      rfl
    | ok t => rw [hj] at h; exact ih h

theorem readItems_error {l : List (Name × JVal)} {d : DS (List JVal)} {e : PyErr}
    (h : readItems l d = .error e) : e = .typeError ∨ e = .attributeError := by
  induction l generalizing d with
  | nil => cases h
  | cons x xs ih =>
    unfold readItems at h
    rw [forLoop] at h
    cases hv : x.2 with
    | obj cs =>
      rw [hv] at h
      simp only at h
      cases hc : readCodings cs [] with
      | error e' => rw [hc] at h; cases h; exact Or.inl (readCodings_error hc)
      | ok codings => rw [hc] at h; exact ih h
    | null => rw [hv] at h; cases h; exact Or.inr rfl
    | bool b => rw [hv] at h; cases h; exact Or.inr rfl
    | num n => rw [hv] at h; cases h; exact Or.inr rfl
    | float r => rw [hv] at h; cases h; exact Or.inr rfl
    | str s => rw [hv] at h; cases h; exact Or.inr rfl
    | arr l => rw [hv] at h; cases h; exact Or.inr rfl

/-- The document that `input_linear_mass_json` sees, when it is an object. -/
theorem inputJson_obj (entries : List (Name × JVal)) :
    (¬ Linear entries → inputJson (some (.obj entries)) = .error .dataIOError) ∧
    (Linear entries → inputJson (some (.obj entries)) ≠ .error .dataIOError) := by
  unfold inputJson Linear
  cases hs : dictGet entries kSegType with
  | none => simp [jsonContains, hs]
  | some v =>
    simp only [jsonContains, hs, jsonIndex, Option.isSome_some]
    cases v with
    | str s =>
      by_cases h : s = kLinear
      · subst h
        cases hi : dictGet entries kItems with
        | none => simp
        | some items =>
          refine ⟨fun h => absurd ⟨rfl, items, rfl⟩ h, fun _ h => ?_⟩
          simp only [if_true] at h
          cases items with
          | obj its =>
            rcases readItems_error h with h | h <;> cases h
          | _ => cases h
      · simp [h]
    | _ => simp

/-! ## TSV -/

/-- The codings of one row. -/
theorem tsvCols (parse : Name → Option ℤ) (cols : List Name) (acc : List ℤ) :
    match forLoop cols acc (tsvCol parse) with
    | .ok out => ∃ t, cols.map parse = t.map some ∧ out = acc ++ t
    | .error e => e = .valueError ∧ ∃ col ∈ cols, parse col = none := by
  induction cols generalizing acc with
  | nil => exact ⟨[], rfl, by simp⟩
  | cons c cs ih =>
    rw [forLoop]
    rw [tsvCol]
    cases hc : parse c with
    | none => exact ⟨rfl, c, List.mem_cons_self .., hc⟩
    | some n =>
      simp only
      have := ih (acc ++ [n])
      revert this
      cases forLoop cs (acc ++ [n]) (tsvCol parse) with
      | ok out =>
        rintro ⟨t, h1, rfl⟩
        exact ⟨n :: t, by simp [h1, hc], by simp⟩
      | error e =>
        rintro ⟨rfl, col, h1, h2⟩
        exact ⟨rfl, col, List.mem_cons_of_mem _ h1, h2⟩

/-- A row that can be read. -/
def RowOk (parse : Name → Option ℤ) (row : List Name) : Prop :=
  row ≠ [] ∧ ∀ col ∈ row.drop 1, parse col ≠ none

theorem tsvRow_cases (parse : Name → Option ℤ) (codings : List (Name × List ℤ)) (row : List Name) :
    (∃ coder cols t, row = coder :: cols ∧ cols.map parse = t.map some ∧
      tsvRow parse codings row = .ok (dictSet codings coder t)) ∨
    (¬ RowOk parse row ∧ ∃ e, tsvRow parse codings row = .error e ∧
      (e = .keyError ∧ row = [] ∨ e = .valueError)) := by
  cases row with
  | nil => exact Or.inr ⟨fun h => h.1 rfl, _, rfl, Or.inl ⟨rfl, rfl⟩⟩
  | cons coder cols =>
    have h := tsvCols parse cols []
    revert h
    cases hf : forLoop cols [] (tsvCol parse) with
    | ok out =>
      rintro ⟨t, h1, h2⟩
      rw [List.nil_append] at h2
      subst h2
      exact Or.inl ⟨coder, cols, _, rfl, h1, by simp only [tsvRow, hf]⟩
    | error e =>
      rintro ⟨rfl, col, h1, h2⟩
      exact Or.inr ⟨fun h => h.2 col h1 h2, _, by simp only [tsvRow, hf], Or.inr rfl⟩

theorem rowOk_of_map {parse : Name → Option ℤ} {coder : Name} {cols : List Name} {t : List ℤ}
    (h : cols.map parse = t.map some) : RowOk parse (coder :: cols) := by
  refine ⟨by simp, ?_⟩
  intro col hc hn
  have : parse col ∈ t.map some := by
    rw [← h]; exact List.mem_map_of_mem hc
  obtain ⟨n, _, hn'⟩ := List.mem_map.1 this
  rw [hn] at hn'
  cases hn'

/-- The codings after the rows, given those before. -/
theorem tsvRows (parse : Name → Option ℤ) (rows : List (List Name)) (codings : List (Name × List ℤ)) :
    match forLoop rows codings (tsvRow parse) with
    | .ok out => (∀ row ∈ rows, RowOk parse row) ∧
        ((codings.map Prod.fst).Nodup → (out.map Prod.fst).Nodup) ∧
        ∀ m v, dictGet out m = some v ↔
          (∃ row, lastRow rows m = some row ∧ (row.drop 1).map parse = v.map some) ∨
          (lastRow rows m = none ∧ dictGet codings m = some v)
    | .error e => (e = .keyError ∧ [] ∈ rows ∨ e = .valueError) ∧ ∃ row ∈ rows, ¬ RowOk parse row := by
  induction rows generalizing codings with
  | nil =>
    refine ⟨by simp, id, ?_⟩
    intro m v
    simp [lastRow]
  | cons row rest ih =>
    rw [forLoop]
    rcases tsvRow_cases parse codings row with ⟨coder, cols, t, rfl, h1, h2⟩ | ⟨h1, e, h2, h3⟩
    · rw [h2]
      simp only
      have hrow := ih (dictSet codings coder t)
      revert hrow
      cases forLoop rest (dictSet codings coder t) (tsvRow parse) with
      | error e =>
        rintro ⟨a1, row, a2, a3⟩
        refine ⟨?_, row, List.mem_cons_of_mem _ a2, a3⟩
        rcases a1 with ⟨a, b⟩ | a
        · exact Or.inl ⟨a, List.mem_cons_of_mem _ b⟩
        · exact Or.inr a
      | ok out =>
        rintro ⟨a1, a2, a3⟩
        refine ⟨?_, fun h => a2 (dictKeys_dictSet_nodup h), ?_⟩
        · intro r hr
          rcases List.mem_cons.1 hr with rfl | hr
          · exact rowOk_of_map h1
          · exact a1 r hr
        · intro m v
          rw [a3]
          have hl : lastRow ((coder :: cols) :: rest) m =
              (lastRow rest m).or (if coder = m then some (coder :: cols) else none) := by
            unfold lastRow
            rw [List.reverse_cons, List.find?_append]
            by_cases hc : coder = m
            · simp [hc]
            · simp [hc]
          rw [hl, dictGet_set]
          cases hm : lastRow rest m with
          | some r => simp
          | none =>
            by_cases hc : coder = m
            · subst hc
              simp only [Option.none_or, if_true]
              simp only [reduceCtorEq, false_and, exists_false, true_and, false_or, Option.some.injEq,
                exists_eq_left', List.drop_succ_cons, List.drop_zero, h1, or_false]
              constructor
              · rintro rfl; rfl
              · intro h; exact List.map_injective_iff.2 (Option.some_injective _) h
            · simp [hc, Ne.symm hc]
    · rw [h2]
      refine ⟨?_, row, List.mem_cons_self .., h1⟩
      rcases h3 with ⟨a, b⟩ | a
      · exact Or.inl ⟨a, by rw [b]; exact List.mem_cons_self ..⟩
      · exact Or.inr a

end SegEval
