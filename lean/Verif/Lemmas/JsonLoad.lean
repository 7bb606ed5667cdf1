import Verif.Lemmas.JsonCanonical
import Verif.Lemmas.DataTsv

/-!
# What the text of a JSON file loads as
-/

namespace SegEval

open Spec

theorem tupleOf_iff {α : Type} {v : JV α} {t : List (JV α)} : TupleOf v t ↔ jsonTuple v = .ok t := by
  constructor
  · rintro ⟨⟩ <;> rfl
  · intro h
    cases v with
    | arr l => cases h; exact TupleOf.arr _
    | str s => cases h; exact .str s
    | obj l => cases h; exact TupleOf.obj _
    | null => cases h
    | bool => cases h
    | num => cases h
    | float => cases h

theorem readCodings_ok {α : Type} [DecidableEq α] {l : List (List α × JV α)} {acc out : List (List α × List (JV α))}
    (h : readCodings l acc = .ok out) : ∀ e ∈ l, ∃ t, TupleOf e.2 t := by
  induction l generalizing acc with
  | nil => intro e he; cases he
  | cons x xs ih =>
    unfold readCodings at h
    rw [forLoop] at h
    cases hj : jsonTuple x.2 with
    | error e' => rw [hj] at h; cases h
    | ok t =>
      rw [hj] at h
      intro e he
      rcases List.mem_cons.1 he with rfl | he
      · exact ⟨t, tupleOf_iff.2 hj⟩
      · exact ih h e he

theorem readItems_ok {l : List (Name × JVal)} {d d' : DS (List JVal)}
    (h : readItems l d = .ok d') : ItemsOk l := by
  induction l generalizing d with
  | nil => intro e he; cases he
  | cons x xs ih =>
    unfold readItems at h
    rw [forLoop] at h
    cases hv : x.2 with
    | obj cs =>
      rw [hv] at h
      simp only at h
      cases hc : readCodings cs [] with
      | error e' => rw [hc] at h; cases h
      | ok codings =>
        rw [hc] at h
        intro e he
        rcases List.mem_cons.1 he with rfl | he
        · exact ⟨cs, hv, readCodings_ok hc⟩
        · exact ih h e he
    | null => rw [hv] at h; cases h
    | bool => rw [hv] at h; cases h
    | num => rw [hv] at h; cases h
    | float => rw [hv] at h; cases h
    | str => rw [hv] at h; cases h
    | arr => rw [hv] at h; cases h

/-- The members of a written object are written. -/
theorem members_text {α : Type} [DecidableEq α] {B : Name → List α → Prop} {F : Floats} :
    ∀ {l : List (List α × JV α)} {t : Name}, JMembersOf B F t l → ∀ e ∈ l, ∃ t, JTextOf B F t e.2
  | _, _, .one _ _ _ _ h _, e, he => by
    rw [List.mem_singleton.1 he]
    exact ⟨_, h⟩
  | _, _, .more _ _ _ _ h _ hr, e, he => by
    rcases List.mem_cons.1 he with rfl | he
    · exact ⟨_, h⟩
    · exact members_text hr e he

theorem jtext_obj {α : Type} [DecidableEq α] {B : Name → List α → Prop} {F : Floats} {t : Name}
    {l : List (List α × JV α)} (h : JTextOf B F t (.obj l)) :
    (l.map Prod.fst).Nodup ∧ ∀ e ∈ l, ∃ t, JTextOf B F t e.2 := by
  cases h with
  | emptyObj => exact ⟨List.nodup_nil, fun e he => by cases he⟩
  | obj h =>
    refine ⟨dictUpdate_nodup _ _ List.nodup_nil, ?_⟩
    intro e he
    rcases mem_dictUpdate he with he | he
    · exact members_text h e he
    · cases he

theorem readable_of_ok {α : Type} [DecidableEq α] {B : Name → List α → Prop} {F : Floats}
    {its : List (List α × JV α)} (ht : ∀ e ∈ its, ∃ t, JTextOf B F t e.2) (h : ItemsOk its) : ∀ e ∈ its, Readable e.2 := by
  intro e he
  obtain ⟨cs, hc, hcs⟩ := h e he
  obtain ⟨t, htx⟩ := ht e he
  rw [hc] at htx
  refine ⟨cs, hc, (jtext_obj htx).1, ?_⟩
  intro c hcm
  obtain ⟨t, ht⟩ := hcs c hcm
  exact ⟨t, tupleOf_iff.1 ht⟩

/-- Exactly the loadable objects load. -/
theorem inputJson_ok_iff {F : Floats} {text : Name} {v : JVal} (ht : JText F text v) :
    (∃ d, inputJson (some v) = .ok d) ↔ ∃ entries, v = .obj entries ∧ Loadable entries := by
  constructor
  · rintro ⟨d, h⟩
    cases v with
    | obj entries =>
      refine ⟨entries, rfl, ?_⟩
      have hl : Linear entries := by
        by_contra hn
        rw [(inputJson_obj entries).1 hn] at h
        cases h
      obtain ⟨hs, i, hi⟩ := hl
      refine ⟨hs, ?_⟩
      cases i with
      | obj its =>
        rw [inputJson_linear hs hi] at h
        exact ⟨its, hi, readItems_ok h⟩
      | null => simp [inputJson, jsonContains, jsonIndex, hs, hi] at h
      | bool => simp [inputJson, jsonContains, jsonIndex, hs, hi] at h
      | num => simp [inputJson, jsonContains, jsonIndex, hs, hi] at h
      | float => simp [inputJson, jsonContains, jsonIndex, hs, hi] at h
      | str => simp [inputJson, jsonContains, jsonIndex, hs, hi] at h
      | arr => simp [inputJson, jsonContains, jsonIndex, hs, hi] at h
    | null => cases h
    | bool => cases h
    | num => cases h
    | float => cases h
    | str s =>
      unfold inputJson at h
      cases hc : isInfix kSegType s <;> simp [jsonContains, jsonIndex, hc] at h
    | arr l =>
      unfold inputJson at h
      simp only [jsonContains, jsonIndex] at h
      split at h
      · cases h
      · cases h
      · cases h
  · rintro ⟨entries, rfl, hs, its, hi, hok⟩
    obtain ⟨t, hti⟩ := (jtext_obj ht).2 _ (dictGet_mem hi)
    obtain ⟨hn, hm⟩ := jtext_obj hti
    obtain ⟨d', h, _⟩ := readItems_get its (readable_of_ok hm hok) hn
      { properties := entries.filter (fun e => decide (e.1 ≠ kItems)) }
    exact ⟨d', by rw [inputJson_linear hs hi, h]⟩

/-- What a loaded document holds. -/
theorem inputJson_holds {F : Floats} {text : Name} {entries : List (Name × JVal)} {d : DS (List JVal)}
    (ht : JText F text (.obj entries)) (h : inputJson (some (.obj entries)) = .ok d) :
    IsDict2 d.items ∧ d.coders = ∅ ∧
      (∀ k, dictGet d.properties k = if k = kItems then none else dictGet entries k) ∧
      ∃ its, dictGet entries kItems = some (.obj its) ∧
        (∀ l, HasItem d.items l ↔ ∃ v, dictGet its l = some v) ∧
        ∀ l m t, Has d.items l m t ↔
          ∃ cs v, dictGet its l = some (.obj cs) ∧ dictGet cs m = some v ∧ TupleOf v t := by
  obtain ⟨_, he, hs, its, hi, hok⟩ := (inputJson_ok_iff ht).1 ⟨d, h⟩
  cases he
  obtain ⟨t, hti⟩ := (jtext_obj ht).2 _ (dictGet_mem hi)
  obtain ⟨hn, hm⟩ := jtext_obj hti
  obtain ⟨d', h', e1, e2, _, _, e3, e4, e5⟩ := readItems_get its (readable_of_ok hm hok) hn
    { properties := entries.filter (fun e => decide (e.1 ≠ kItems)) }
  rw [inputJson_linear hs hi, h'] at h
  cases h
  refine ⟨e3 ⟨List.nodup_nil, fun e he => by cases he⟩, e2, ?_, its, hi, ?_, ?_⟩
  · intro k
    rw [e1, dictGet_filter]
  · intro l
    rw [e4]
    simp [HasItem, dictGet]
  · intro l m t
    rw [e5]
    simp [Has, dictGet, tupleOf_iff]

theorem inputJson_attributes {F : Floats} {text : Name} {entries : List (Name × JVal)} {d : DS (List JVal)}
    (ht : JText F text (.obj entries)) (h : inputJson (some (.obj entries)) = .ok d) :
    d.coders = ∅ ∧ d.boundaryTypes = {1} ∧ d.boundaryFormat = .mass := by
  obtain ⟨_, he, hs, its, hi, hok⟩ := (inputJson_ok_iff ht).1 ⟨d, h⟩
  cases he
  obtain ⟨t, hti⟩ := (jtext_obj ht).2 _ (dictGet_mem hi)
  obtain ⟨hn, hm⟩ := jtext_obj hti
  obtain ⟨d', h', _, e1, e2, e3, _⟩ := readItems_get its (readable_of_ok hm hok) hn
    { properties := entries.filter (fun e => decide (e.1 ≠ kItems)) }
  rw [inputJson_linear hs hi, h'] at h
  cases h
  exact ⟨e1, e2, e3⟩

theorem inputJson_errors {v : JVal} {e : PyErr} (h : inputJson (some v) = .error e) :
    e = .dataIOError ∨ e = .typeError ∨ e = .attributeError := by
  cases v with
  | obj entries =>
    by_cases hl : Linear entries
    · obtain ⟨hs, i, hi⟩ := hl
      cases i with
      | obj its =>
        rw [inputJson_linear hs hi] at h
        exact Or.inr (readItems_error h)
      | _ =>
        simp [inputJson, jsonContains, jsonIndex, hs, hi] at h
        subst h
        exact Or.inr (Or.inr rfl)
    · rw [(inputJson_obj entries).1 hl] at h
      cases h
      exact Or.inl rfl
  | str s =>
    unfold inputJson at h
    cases hc : isInfix kSegType s <;> simp [jsonContains, jsonIndex, hc] at h <;> simp [← h]
  | arr l =>
    unfold inputJson at h
    simp only [jsonContains, jsonIndex] at h
    split at h
    · rename_i h'; cases h'
    · cases h; simp
    · cases h; simp
  | _ => cases h; simp

/-! ## Equal texts -/

theorem output_json_obj (d : DS (List ℤ)) : outputJson d = .obj (sortEntries
    (dictUpdate (dictSet [(kSegType, .str kLinear)] kItems (itemsToJson d.items)) d.properties)) := by
  unfold outputJson outputData
  rw [sortKeys]

theorem doc_output (F : Floats) {d : DS (List ℤ)} (hd : IsDict2 d.items)
    (hp : PyJson F (.obj d.properties)) : JText F (outputJsonText d) (outputJson d) :=
  dump_text F 0 _ (sort_py F _ (output_py F hd hp))

theorem jdoc_of_text {F : Floats} {text : Name} {v : JVal} (h : JText F text v) : JDoc F text v :=
  ⟨[], text, [], by simp, fun c hc => absurd hc List.not_mem_nil, h, fun c hc => absurd hc List.not_mem_nil⟩

theorem jdoc_unique {F : Floats} {text : Name} {v w : JVal} (h : JDoc F text v) (h' : JDoc F text w) : v = w := by
  rw [← parseJson_iff] at h h'
  rw [h] at h'
  cases h'
  rfl

theorem inputJsonText_doc {F : Floats} {text : Name} {v : JVal} (h : JDoc F text v) :
    inputJsonText F text = inputJson (some v) := by
  unfold inputJsonText
  rw [(parseJson_iff F _ v).2 ((doc_universal F _ _).2 h)]

theorem output_text_eq (F : Floats) {d d' : DS (List ℤ)} (hd : IsDict2 d.items)
    (hp : PyJson F (.obj d.properties)) (hd' : IsDict2 d'.items) (hp' : PyJson F (.obj d'.properties)) :
    outputJsonText d = outputJsonText d' ↔ SameJson (outputData d) (outputData d') := by
  rw [← sort_eq_iff F (output_py F hd hp) (output_py F hd' hp')]
  constructor
  · intro h
    have h1 := jdoc_of_text (doc_output F hd hp)
    rw [h] at h1
    exact jdoc_unique h1 (jdoc_of_text (doc_output F hd' hp'))
  · intro h
    unfold outputJsonText outputJson
    rw [h]

theorem same_refl (v : JVal) : SameJson v v := fun _ => rfl

theorem same_nums {v w : List ℤ} (h : v = w) : SameJson (.arr (v.map .num)) (.arr (w.map .num)) := by
  rw [h]; exact same_refl _

theorem same_items {a b : List (Name × List (Name × List ℤ))} (hi : ∀ l, HasItem a l ↔ HasItem b l)
    (h : ∀ l m v, Has a l m v ↔ Has b l m v) : SameJson (itemsToJson a) (itemsToJson b) := by
  unfold itemsToJson
  apply lookAt_obj_congr
  intro k
  have e1 : ∀ x : List (Name × List (Name × List ℤ)),
      dictGet (x.map (fun it => (it.1, JV.obj (α := Char) (it.2.map (fun c => (c.1, .arr (c.2.map .num))))))) k =
        (dictGet x k).map (fun cs => .obj (cs.map (fun c => (c.1, .arr (c.2.map .num))))) := fun x =>
    dictGet_map (fun cs : List (Name × List ℤ) => JV.obj (α := Char) (cs.map (fun c => (c.1, .arr (c.2.map .num))))) x k
  rw [e1, e1]
  cases ha : dictGet a k with
  | none =>
    cases hb : dictGet b k with
    | none => exact Or.inl ⟨rfl, rfl⟩
    | some cs =>
      obtain ⟨cs', h'⟩ := (hi k).2 ⟨cs, hb⟩
      rw [ha] at h'
      cases h'
  | some cs =>
    cases hb : dictGet b k with
    | none =>
      obtain ⟨cs', h'⟩ := (hi k).1 ⟨cs, ha⟩
      rw [hb] at h'
      cases h'
    | some cs' =>
      refine Or.inr ⟨_, _, rfl, rfl, ?_⟩
      apply lookAt_obj_congr
      intro m
      have e2 : ∀ x : List (Name × List ℤ), dictGet (x.map (fun c => (c.1, JV.arr (α := Char) (c.2.map .num)))) m =
          (dictGet x m).map (fun v => .arr (v.map .num)) := fun x =>
        dictGet_map (fun v : List ℤ => JV.arr (α := Char) (v.map .num)) x m
      rw [e2, e2]
      have hk := h k m
      cases hm : dictGet cs m with
      | none =>
        cases hm' : dictGet cs' m with
        | none => exact Or.inl ⟨rfl, rfl⟩
        | some v =>
          obtain ⟨c, h1, h2⟩ := (hk v).2 ⟨cs', hb, hm'⟩
          rw [ha] at h1; cases h1
          rw [hm] at h2; cases h2
      | some v =>
        obtain ⟨c, h1, h2⟩ := (hk v).1 ⟨cs, ha, hm⟩
        rw [hb] at h1; cases h1
        rw [h2]
        exact Or.inr ⟨_, _, rfl, rfl, same_refl _⟩

theorem output_get {d : DS (List ℤ)} (hp : (d.properties.map Prod.fst).Nodup)
    (hi : dictGet d.properties kItems = none)
    (hs : ∀ v, dictGet d.properties kSegType = some v → v = .str kLinear) (k : Name) :
    dictGet (dictUpdate (dictSet [(kSegType, .str kLinear)] kItems (itemsToJson d.items)) d.properties) k =
      if k = kItems then some (itemsToJson d.items)
      else dictGet (dictSet d.properties kSegType (.str kLinear)) k := by
  rw [dictUpdate_get _ _ hp, dictGet_set, dictGet_set]
  by_cases h1 : k = kItems
  · subst h1
    simp [hi]
  · rw [if_neg h1, if_neg h1]
    by_cases h2 : k = kSegType
    · subst h2
      simp only [if_true]
      cases hc : dictGet d.properties kSegType with
      | none => rfl
      | some v => rw [hs v hc]; rfl
    · rw [if_neg h2]
      have : dictGet [(kSegType, JV.str (α := Char) kLinear)] k = none := by
        rw [dictGet, if_neg (fun h => h2 h.symm)]; rfl
      rw [this, Option.or_none]

end SegEval
