import Verif.Lemmas.JsonWide
import Verif.Props.JsonText

/-!
# C85 for every text
-/

namespace SegEval.Props

open SegEval Spec

/-! ## C85 -/

/-- C85: a text has one value at most, so `json.load` has no choice. -/
theorem C85_unique {F : Floats} {text : Name} {v w : JV ℕ} (h : WideDoc F text v) (h' : WideDoc F text w) :
    v = w :=
  wideDoc_unique h h'

/-- C85: a file loads exactly if its text is an object that says it is linear and whose items are objects
of arrays, strings or objects. -/
theorem C85_loads (F : Floats) (text : Name) :
    (∃ d, inputJsonWide F text = .ok d) ↔ ∃ entries, WideDoc F text (.obj entries) ∧ WideLoadable entries := by
  constructor
  · rintro ⟨d, h⟩
    cases hp : parseWide F (universalNewlines text) with
    | error e => unfold inputJsonWide at h; rw [hp] at h; cases h
    | ok v =>
      have hd := (docOf_universal reads_wide F _ _).1 ((parseWide_iff F _ _).1 hp)
      rw [inputJsonWide_doc hd] at h
      obtain ⟨g, t, g', _, _, ht, _⟩ := id hd
      obtain ⟨entries, rfl, hl⟩ := (loadWide_ok_iff ht).1 ⟨d, h⟩
      exact ⟨entries, hd, hl⟩
  · rintro ⟨entries, hd, hl⟩
    rw [inputJsonWide_doc hd]
    obtain ⟨g, t, g', _, _, ht, _⟩ := id hd
    exact (loadWide_ok_iff ht).2 ⟨entries, rfl, hl⟩

/-- C85: a loaded dataset holds exactly the items and codings of the document, each coding as a tuple, and
all other entries as properties. -/
theorem C85_holds {F : Floats} {text : Name} {d : WideDataset} (h : inputJsonWide F text = .ok d) :
    ∃ entries its, WideDoc F text (.obj entries) ∧ dictGet entries (codes kItems) = some (.obj its) ∧
      WideDict d ∧
      (∀ k, dictGet d.properties k = if k = codes kItems then none else dictGet entries k) ∧
      (∀ l, (∃ cs, dictGet d.items l = some cs) ↔ ∃ v, dictGet its l = some v) ∧
      ∀ l m t, WideHas d l m t ↔
        ∃ cs v, dictGet its l = some (.obj cs) ∧ dictGet cs m = some v ∧ TupleOf v t := by
  obtain ⟨entries, hd, _⟩ := (C85_loads F text).1 ⟨d, h⟩
  rw [inputJsonWide_doc hd] at h
  obtain ⟨g, t, g', _, _, ht, _⟩ := id hd
  obtain ⟨h1, h2, its, h3, h4, h5⟩ := loadWide_holds ht h
  exact ⟨entries, its, hd, h3, h1, h2, h4, h5⟩

/-- C85: a file whose text is no document raises DataIOError. -/
theorem C85_malformed {F : Floats} {text : Name} (h : ∀ v, ¬ WideDoc F text v) :
    inputJsonWide F text = .error .dataIOError := by
  unfold inputJsonWide
  cases hp : parseWide F (universalNewlines text) with
  | ok v => exact absurd ((docOf_universal reads_wide F _ _).1 ((parseWide_iff F _ _).1 hp)) (h v)
  | error e => rw [parseWide_error hp]

/-- C85: no text raises anything but DataIOError, TypeError and AttributeError. -/
theorem C85_errors {F : Floats} {text : Name} {e : PyErr} (h : inputJsonWide F text = .error e) :
    e = .dataIOError ∨ e = .typeError ∨ e = .attributeError := by
  unfold inputJsonWide at h
  cases hp : parseWide F (universalNewlines text) with
  | ok v => rw [hp] at h; exact loadWide_errors h
  | error e' =>
    rw [hp] at h
    cases h
    exact Or.inl (parseWide_error hp)

/-- C85: for files that the model with characters loads, the model with code points loads the same. -/
theorem C85_agrees {F : Floats} {text : Name} {d : DS (List JVal)} (h : inputJsonText F text = .ok d) :
    inputJsonWide F text = .ok (widenDataset d) := by
  obtain ⟨entries, hd, _⟩ := (C85_paired_loads F text).1 ⟨d, h⟩
  rw [inputJsonText_doc hd] at h
  obtain ⟨g, t, g', _, _, ht, _⟩ := id hd
  rw [inputJsonWide_doc (doc_wide hd)]
  exact load_wide ht h

/-- A file whose coder is a lone surrogate followed by a pair. -/
def exLone : Name :=
  "{\"segmentation_type\": \"linear\", \"items\": {\"x\": {\"\\ud800\\ud83d\\ude00\": [2, -3]}}}".toList

/-- The coder's name is two code points long, and only the second is a character. -/
example : (inputJsonWide exFloats exLone).toOption.map (fun d => d.items.map (fun it => (it.1, it.2.map (fun c =>
      (c.1, c.2.map (fun v => match v with | .num n => n | _ => 0)))))) =
    some [([120], [([0xd800, 0x1f600], [2, -3])])] ∧
    inputJsonText exFloats exLone matches .error .unmodelled := by decide +kernel

example : ∃ entries, WideDoc exFloats exLone (.obj entries) ∧ WideLoadable entries := by
  refine (C85_loads _ _).1 ?_
  have h : (inputJsonWide exFloats exLone).toOption.isSome = true := by decide +kernel
  cases hd : inputJsonWide exFloats exLone with
  | error e => rw [hd] at h; cases h
  | ok d => exact ⟨d, rfl⟩

/-- An escape that is cut off. -/
example : ∀ text ∈ ["\"\\ud83d\\ude0\"".toList, "\"\\ud83\"".toList, "\"\\ud83d".toList],
    ∀ v, ¬ WideDoc exFloats text v := by
  have h : ∀ text ∈ ["\"\\ud83d\\ude0\"".toList, "\"\\ud83\"".toList, "\"\\ud83d".toList],
      (parseWide exFloats text).toOption.isSome = false := by decide +kernel
  intro text ht v hd
  have := h text ht
  rw [(parseWide_iff _ _ _).2 hd] at this
  cases this

end SegEval.Props
