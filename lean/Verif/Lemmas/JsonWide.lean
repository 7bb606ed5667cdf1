import Verif.Spec.JsonWide
import Verif.Lemmas.JsonLoad

/-!
# Loading JSON documents with lone surrogates
-/

namespace SegEval

open Spec

/-! ## Strings -/

theorem isHigh_iff {n : ℕ} : isHigh n = true ↔ 0xd800 ≤ n ∧ n < 0xdc00 := by
  unfold isHigh; simp

theorem isLow_iff {n : ℕ} : isLow n = true ↔ 0xdc00 ≤ n ∧ n < 0xe000 := by
  unfold isLow; simp

theorem joinWide_pair {u v : ℕ} (h1 : isHigh u = true) (h2 : isLow v = true) (us : List ℕ) :
    joinWide (u :: v :: us) = (0x10000 + (u - 0xd800) * 0x400 + (v - 0xdc00)) :: joinWide us := by
  rw [joinWide, h1, h2]; rfl

theorem joinWide_single {u : ℕ} {us : List ℕ} (h : ∀ v r, us = v :: r → ¬ (isHigh u = true ∧ isLow v = true)) :
    joinWide (u :: us) = u :: joinWide us := by
  cases us with
  | nil => rfl
  | cons v r =>
    rw [joinWide, if_neg]
    rw [Bool.and_eq_true]
    exact h v r rfl

theorem joinWide_char (c : Char) (us : List ℕ) : joinWide (c.toNat :: us) = c.toNat :: joinWide us := by
  apply joinWide_single
  intro v r _ h
  rw [(char_not_surrogate c).1] at h
  cases h.1

/-- The first unit is the second half of a pair exactly if the text begins with an escape for it. -/
theorem lowEscape_iff {t : Name} {us : List ℕ} (h : UnitsOf t us) :
    LowEscape t ↔ ∃ v r, us = v :: r ∧ isLow v = true := by
  constructor
  · rintro ⟨w, r, low, rfl, hw, hl⟩
    obtain ⟨a, b, c, d, rfl⟩ := hex4_four hw
    have hn : 0xdc00 + low < 0x10000 := hex4_lt hw
    have hs := scanUnits_complete h []
    simp only [List.cons_append, List.nil_append] at hs
    rw [scanUnits_code, hexVal4_iff.2 hw] at hs
    obtain ⟨us', rfl, _⟩ := map_pair hs
    exact ⟨_, us', rfl, isLow_iff.2 ⟨by omega, by omega⟩⟩
  · rintro ⟨v, r, rfl, hv⟩
    obtain ⟨w, t', rfl, hw, _⟩ := units_surrogate h (Or.inr hv)
    rw [isLow_iff] at hv
    refine ⟨w, t', v - 0xdc00, rfl, ?_, by omega⟩
    rwa [show 0xdc00 + (v - 0xdc00) = v by omega]

theorem wide_units {b : Name} {s : List ℕ} (h : WideBody b s) : ∃ us, UnitsOf b us ∧ joinWide us = s := by
  induction h with
  | nil => exact ⟨[], .nil, rfl⟩
  | plain h1 h2 h3 _ ih =>
    obtain ⟨us, hu, rfl⟩ := ih
    exact ⟨_, .plain h1 h2 h3 hu, joinWide_char _ _⟩
  | escape he _ ih =>
    obtain ⟨us, hu, rfl⟩ := ih
    exact ⟨_, .escape he hu, joinWide_char _ _⟩
  | code hw hn _ ih =>
    obtain ⟨us, hu, rfl⟩ := ih
    refine ⟨_, .code hw hu, joinWide_single ?_⟩
    rintro v r rfl ⟨h1, h2⟩
    exact hn ⟨isHigh_iff.1 h1, (lowEscape_iff hu).2 ⟨v, r, rfl, h2⟩⟩
  | @pair w w' high low t s hw hw' h1 h2 _ ih =>
    obtain ⟨us, hu, rfl⟩ := ih
    refine ⟨(0xd800 + high) :: (0xdc00 + low) :: us, ?_, ?_⟩
    · have := UnitsOf.code hw (UnitsOf.code hw' hu)
      simpa using this
    · rw [joinWide_pair (isHigh_iff.2 ⟨by omega, by omega⟩) (isLow_iff.2 ⟨by omega, by omega⟩)]
      rw [show 0x10000 + (0xd800 + high - 0xd800) * 0x400 + (0xdc00 + low - 0xdc00) =
        0x10000 + 1024 * high + low by omega]

theorem units_wide : ∀ (n : ℕ) {b : Name} {us : List ℕ}, us.length ≤ n → UnitsOf b us →
    WideBody b (joinWide us) := by
  intro n
  induction n with
  | zero =>
    intro b us hn hu
    have : us = [] := List.length_eq_zero_iff.1 (by omega)
    subst this
    cases hu
    exact .nil
  | succ n ih =>
    intro b us hn hu
    cases hu with
    | nil => exact .nil
    | plain h1 h2 h3 hu =>
      rw [joinWide_char]
      exact .plain h1 h2 h3 (ih (by simp at hn; omega) hu)
    | escape he hu =>
      rw [joinWide_char]
      exact .escape he (ih (by simp at hn; omega) hu)
    | @code w u t us hw hu =>
      by_cases hp : isHigh u = true ∧ LowEscape t
      · obtain ⟨v, r, rfl, hv⟩ := (lowEscape_iff hu).1 hp.2
        obtain ⟨w', t', rfl, hw', hu'⟩ := units_surrogate hu (Or.inr hv)
        have hb := ih (by simp at hn; omega) hu'
        rw [joinWide_pair hp.1 hv]
        obtain ⟨h1, h2⟩ := isHigh_iff.1 hp.1
        obtain ⟨h3, h4⟩ := isLow_iff.1 hv
        obtain ⟨high, rfl⟩ : ∃ k, u = 0xd800 + k := ⟨u - 0xd800, by omega⟩
        obtain ⟨low, rfl⟩ : ∃ k, v = 0xdc00 + k := ⟨v - 0xdc00, by omega⟩
        have := WideBody.pair hw hw' (by omega) (by omega) hb
        rw [show 0x10000 + (0xd800 + high - 0xd800) * 0x400 + (0xdc00 + low - 0xdc00) =
          0x10000 + 1024 * high + low by omega]
        simpa using this
      · rw [joinWide_single]
        · refine .code hw ?_ (ih (by simp at hn; omega) hu)
          rintro ⟨h1, h2⟩
          exact hp ⟨isHigh_iff.2 h1, h2⟩
        · rintro v r rfl ⟨h1, h2⟩
          exact hp ⟨h1, (lowEscape_iff hu).2 ⟨v, r, rfl, h2⟩⟩

theorem reads_wide : ReadsAs (fun us => some (joinWide us)) WideBody := by
  intro b s
  constructor
  · intro h
    obtain ⟨us, hu, rfl⟩ := wide_units h
    exact ⟨us, hu, rfl⟩
  · rintro ⟨us, hu, hj⟩
    cases hj
    exact units_wide _ le_rfl hu

/-! ## Documents -/

theorem parseWide_iff (F : Floats) (text : Name) (v : JV ℕ) : parseWide F text = .ok v ↔ WideDoc F text v :=
  parseJsonOf_iff reads_wide F text v

theorem parseWide_error {F : Floats} {text : Name} {e : PyErr} (h : parseWide F text = .error e) :
    e = .dataIOError := by
  have hJ : ∀ t, scanString (fun us => some (joinWide us)) t = .error e →
      JsonError (fun us => some (joinWide us)) t e := by
    intro t ht
    unfold scanString at ht
    split at ht
    · cases ht; exact Or.inl rfl
    · cases ht
  rcases parseJsonOf_error reads_wide hJ h with h | ⟨_, _, us, hn⟩
  · exact h
  · cases hn

theorem wideDoc_unique {F : Floats} {text : Name} {v w : JV ℕ} (h : WideDoc F text v) (h' : WideDoc F text w) :
    v = w := by
  rw [← parseWide_iff] at h h'
  rw [h] at h'
  cases h'
  rfl

theorem inputJsonWide_doc {F : Floats} {text : Name} {v : JV ℕ} (h : WideDoc F text v) :
    inputJsonWide F text = loadWide v := by
  unfold inputJsonWide
  rw [(parseWide_iff F _ v).2 ((docOf_universal reads_wide F _ _).2 h)]

/-! ## Datasets -/

theorem readItemsWide_ok {l : List (List ℕ × JV ℕ)} {d d' : WideDataset}
    (h : readItemsWide l d = .ok d') : ItemsOk l := by
  induction l generalizing d with
  | nil => intro e he; cases he
  | cons x xs ih =>
    unfold readItemsWide at h
    rw [forLoop] at h
    cases hv : x.2 with
    | obj cs =>
      rw [hv] at h
      simp only at h
      cases hc : readCodings cs [] with
      | error e' => rw [hc] at h; cases h
      | ok codings =>
        rw [hc] at h
        intro e he
        rcases List.mem_cons.1 he with rfl | he
        · exact ⟨cs, hv, readCodings_ok hc⟩
        · exact ih h e he
    | _ => rw [hv] at h; cases h

theorem readItemsWide_get (l : List (List ℕ × JV ℕ)) (hl : ∀ e ∈ l, Readable e.2)
    (hnd : (l.map Prod.fst).Nodup) (d : WideDataset) :
    ∃ d', readItemsWide l d = .ok d' ∧ d'.properties = d.properties ∧ (WideDict d → WideDict d') ∧
      (∀ k, (∃ cs, dictGet d'.items k = some cs) ↔
        (∃ v, dictGet l k = some v) ∨ ∃ cs, dictGet d.items k = some cs) ∧
      ∀ k m t, WideHas d' k m t ↔
        (∃ cs v, dictGet l k = some (.obj cs) ∧ dictGet cs m = some v ∧ jsonTuple v = .ok t) ∨
        (dictGet l k = none ∧ WideHas d k m t) := by
  induction l generalizing d with
  | nil =>
    refine ⟨d, rfl, rfl, id, ?_, ?_⟩
    · intro k; simp [dictGet]
    · intro k m t; simp [dictGet]
  | cons e es ih =>
    obtain ⟨cs, hv, hcs, ht⟩ := hl e (List.mem_cons_self ..)
    obtain ⟨out, r1, r2, r3⟩ := readCodings_get cs ht []
    rw [List.map_cons, List.nodup_cons] at hnd
    obtain ⟨d', h1, h2, h6, h7, h8⟩ :=
      ih (fun x hx => hl x (List.mem_cons_of_mem _ hx)) hnd.2 { d with items := dictSet d.items e.1 out }
    have hnone : dictGet es e.1 = none := dictGet_none_iff.2 fun x hx he =>
      hnd.1 (List.mem_map.2 ⟨x, hx, he⟩)
    refine ⟨d', ?_, h2, ?_, ?_, ?_⟩
    · unfold readItemsWide
      rw [forLoop]
      simp only [hv, r1]
      exact h1
    · intro hd
      apply h6
      refine ⟨dictKeys_dictSet_nodup hd.1, ?_⟩
      intro x hx
      rcases mem_dictSet hx with hx | rfl
      · exact hd.2 x hx
      · exact r2 (by simp)
    · intro k
      rw [h7]
      simp only [dictGet_set]
      rw [dictGet]
      by_cases hk : e.1 = k
      · subst hk; simp
      · simp [hk, Ne.symm hk]
    · intro k m t
      rw [h8]
      unfold WideHas
      simp only [dictGet_set]
      rw [dictGet]
      by_cases hk : e.1 = k
      · subst hk
        simp only [hnone, if_true, hv]
        simp only [reduceCtorEq, false_and, exists_false, false_or, true_and, Option.some.injEq,
          JV.obj.injEq, or_false, exists_eq_left']
        rw [r3 hcs m]
        constructor
        · intro h
          cases hg : dictGet cs m with
          | none => rw [hg] at h; simp [dictGet] at h
          | some v =>
            rw [hg] at h
            refine ⟨cs, v, rfl, hg, ?_⟩
            cases hj : jsonTuple v with
            | error e => simp [hj, Except.toOption] at h
            | ok t' => simp [hj, Except.toOption] at h; rw [h]
        · rintro ⟨cs', v, rfl, hg, hj⟩
          rw [hg]
          simp [hj, Except.toOption]
      · simp [hk, Ne.symm hk]

theorem readItemsWide_error {l : List (List ℕ × JV ℕ)} {d : WideDataset} {e : PyErr}
    (h : readItemsWide l d = .error e) : e = .typeError ∨ e = .attributeError := by
  have hc : ∀ (cs : List (List ℕ × JV ℕ)) acc {e}, readCodings cs acc = .error e → e = .typeError := by
    intro cs
    induction cs with
    | nil => intro acc e h; cases h
    | cons c cs ih =>
      intro acc e h
      unfold readCodings at h
      rw [forLoop] at h
      cases hj : jsonTuple c.2 with
      | error e' =>
        rw [hj] at h
        cases h
        cases hc : c.2 <;> rw [hc] at hj <;> cases hj <;> rfl
      | ok t =>
        rw [hj] at h
        exact ih _ h
  induction l generalizing d with
  | nil => cases h
  | cons x xs ih =>
    unfold readItemsWide at h
    rw [forLoop] at h
    cases hv : x.2 with
    | obj cs =>
      rw [hv] at h
      simp only at h
      cases hcs : readCodings cs [] with
      | error e' => rw [hcs] at h; cases h; exact Or.inl (hc _ _ hcs)
      | ok codings => rw [hcs] at h; exact ih h
    | _ => rw [hv] at h; cases h; exact Or.inr rfl

theorem loadWide_linear {entries its : List (List ℕ × JV ℕ)}
    (hs : dictGet entries (codes kSegType) = some (.str (codes kLinear)))
    (hi : dictGet entries (codes kItems) = some (.obj its)) :
    loadWide (.obj entries) =
      readItemsWide its { properties := entries.filter (fun e => decide (e.1 ≠ codes kItems)) } := by
  simp [loadWide, jsonContains, jsonIndex, hs, hi]

/-- What does not load. -/
theorem loadWide_cases (v : JV ℕ) :
    (∃ entries its, v = .obj entries ∧
      dictGet entries (codes kSegType) = some (.str (codes kLinear)) ∧
      dictGet entries (codes kItems) = some (.obj its)) ∨
    loadWide v = .error .dataIOError ∨ loadWide v = .error .typeError ∨ loadWide v = .error .attributeError := by
  cases v with
  | obj entries =>
    cases hs : dictGet entries (codes kSegType) with
    | none => right; left; simp [loadWide, jsonContains, hs]
    | some ty =>
      cases ty with
      | str s =>
        by_cases hl : s = codes kLinear
        · subst hl
          cases hi : dictGet entries (codes kItems) with
          | none => right; left; simp [loadWide, jsonContains, jsonIndex, hs, hi]
          | some i =>
            cases i with
            | obj its => exact Or.inl ⟨entries, its, rfl, hs, hi⟩
            | _ => right; right; right; simp [loadWide, jsonContains, jsonIndex, hs, hi]
        · right; left; simp [loadWide, jsonContains, jsonIndex, hs, hl]
      | _ => right; left; simp [loadWide, jsonContains, jsonIndex, hs]
  | str s =>
    right
    unfold loadWide
    cases hc : isInfix (codes kSegType) s <;> simp [jsonContains, jsonIndex, hc]
  | arr l =>
    right
    unfold loadWide
    simp only [jsonContains, jsonIndex]
    split
    · rename_i h; cases h
    · exact Or.inl rfl
    · exact Or.inr (Or.inl rfl)
  | _ => right; right; left; rfl

/-- Exactly the loadable objects load. -/
theorem loadWide_ok_iff {F : Floats} {text : Name} {v : JV ℕ} (ht : JTextOf WideBody F text v) :
    (∃ d, loadWide v = .ok d) ↔ ∃ entries, v = .obj entries ∧ WideLoadable entries := by
  constructor
  · rintro ⟨d, h⟩
    rcases loadWide_cases v with ⟨entries, its, rfl, hs, hi⟩ | h' | h' | h'
    · rw [loadWide_linear hs hi] at h
      exact ⟨entries, rfl, hs, its, hi, readItemsWide_ok h⟩
    all_goals rw [h'] at h; cases h
  · rintro ⟨entries, rfl, hs, its, hi, hok⟩
    obtain ⟨t, hti⟩ := (jtext_obj ht).2 _ (dictGet_mem hi)
    obtain ⟨hn, hm⟩ := jtext_obj hti
    obtain ⟨d', h, _⟩ := readItemsWide_get its (readable_of_ok hm hok) hn
      { properties := entries.filter (fun e => decide (e.1 ≠ codes kItems)) }
    exact ⟨d', by rw [loadWide_linear hs hi, h]⟩

theorem loadWide_holds {F : Floats} {text : Name} {entries : List (List ℕ × JV ℕ)} {d : WideDataset}
    (ht : JTextOf WideBody F text (.obj entries)) (h : loadWide (.obj entries) = .ok d) :
    WideDict d ∧
      (∀ k, dictGet d.properties k = if k = codes kItems then none else dictGet entries k) ∧
      ∃ its, dictGet entries (codes kItems) = some (.obj its) ∧
        (∀ l, (∃ cs, dictGet d.items l = some cs) ↔ ∃ v, dictGet its l = some v) ∧
        ∀ l m t, WideHas d l m t ↔
          ∃ cs v, dictGet its l = some (.obj cs) ∧ dictGet cs m = some v ∧ TupleOf v t := by
  obtain ⟨_, he, hs, its, hi, hok⟩ := (loadWide_ok_iff ht).1 ⟨d, h⟩
  cases he
  obtain ⟨t, hti⟩ := (jtext_obj ht).2 _ (dictGet_mem hi)
  obtain ⟨hn, hm⟩ := jtext_obj hti
  obtain ⟨d', h', e1, e3, e4, e5⟩ := readItemsWide_get its (readable_of_ok hm hok) hn
    { properties := entries.filter (fun e => decide (e.1 ≠ codes kItems)) }
  rw [loadWide_linear hs hi, h'] at h
  cases h
  refine ⟨e3 ⟨List.nodup_nil, fun e he => by cases he⟩, ?_, its, hi, ?_, ?_⟩
  · intro k
    rw [e1, dictGet_filter]
  · intro l
    rw [e4]
    simp [dictGet]
  · intro l m t
    rw [e5]
    simp [WideHas, dictGet, tupleOf_iff]

theorem loadWide_errors {v : JV ℕ} {e : PyErr} (h : loadWide v = .error e) :
    e = .dataIOError ∨ e = .typeError ∨ e = .attributeError := by
  rcases loadWide_cases v with ⟨entries, its, rfl, hs, hi⟩ | h' | h' | h'
  · rw [loadWide_linear hs hi] at h
    exact Or.inr (readItemsWide_error h)
  all_goals
    rw [h'] at h
    cases h
    simp

/-! ## Texts without lone surrogates -/

theorem string_wide {b s : Name} (h : StringBody b s) : WideBody b (codes s) := by
  induction h with
  | nil => exact .nil
  | plain h1 h2 h3 _ ih => exact .plain h1 h2 h3 ih
  | escape he _ ih => exact .escape he ih
  | @code w c t s hw _ ih =>
    refine .code hw ?_ ih
    rintro ⟨h, _⟩
    have := (char_not_surrogate c).1
    rw [isHigh_iff.2 h] at this
    cases this
  | pair hw hw' h1 h2 hc _ ih =>
    have := WideBody.pair hw hw' h1 h2 ih
    rw [← hc] at this
    exact this

theorem codes_injective : Function.Injective codes :=
  List.map_injective_iff.2 (fun _ _ h => Char.toNat_inj.1 h)

theorem widenAll_eq (l : List JVal) : widenAll l = l.map widen := by
  induction l with
  | nil => rfl
  | cons v l ih => rw [widenAll, ih]; rfl

theorem widenEntries_eq (l : List (Name × JVal)) : widenEntries l = l.map (fun e => (codes e.1, widen e.2)) := by
  induction l with
  | nil => rfl
  | cons e l ih => obtain ⟨k, v⟩ := e; rw [widenEntries, ih]; rfl

theorem codes_dictSet {V W : Type} (f : V → W) (d : List (Name × V)) (k : Name) (v : V) :
    (dictSet d k v).map (fun e => (codes e.1, f e.2)) =
      dictSet (d.map (fun e => (codes e.1, f e.2))) (codes k) (f v) := by
  induction d with
  | nil => rfl
  | cons e d ih =>
    obtain ⟨k', v'⟩ := e
    rw [List.map_cons, dictSet, dictSet]
    by_cases h : k' = k
    · rw [if_pos h, if_pos (by rw [h])]
      rfl
    · rw [if_neg h, if_neg (fun h' => h (codes_injective h'))]
      rw [List.map_cons, ih]

theorem codes_dictUpdate {V W : Type} (f : V → W) (l d : List (Name × V)) :
    (dictUpdate d l).map (fun e => (codes e.1, f e.2)) =
      dictUpdate (d.map (fun e => (codes e.1, f e.2))) (l.map (fun e => (codes e.1, f e.2))) := by
  unfold dictUpdate
  induction l generalizing d with
  | nil => rfl
  | cons e l ih =>
    rw [List.foldl_cons, ih, codes_dictSet, List.map_cons, List.foldl_cons]

mutual
theorem text_wide {F : Floats} : ∀ {t : Name} {v : JVal}, JText F t v → JTextOf WideBody F t (widen v)
  | _, _, .null => by rw [widen]; exact .null
  | _, _, .true => by rw [widen]; exact .true
  | _, _, .false => by rw [widen]; exact .false
  | _, _, .int h => by rw [widen]; exact .int h
  | _, _, .float h => by rw [widen]; exact .float h
  | _, _, .word h => by rw [widen]; exact .word h
  | _, _, .str h => by rw [widen]; exact .str (string_wide h)
  | _, _, .emptyArr h => by rw [widen, widenAll]; exact .emptyArr h
  | _, _, .arr h => by rw [widen]; exact .arr (elems_wide h)
  | _, _, .emptyObj h => by rw [widen, widenEntries]; exact .emptyObj h
  | _, _, .obj h => by
    rw [widen, widenEntries_eq, codes_dictUpdate]
    have := JTextOf.obj (members_wide h)
    rwa [widenEntries_eq] at this
theorem elems_wide {F : Floats} : ∀ {t : Name} {l : List JVal}, JElems F t l →
    JElemsOf WideBody F t (widenAll l)
  | _, _, .one h1 h2 h3 => by rw [widenAll, widenAll]; exact .one h1 (text_wide h2) h3
  | _, _, .more h1 h2 h3 h4 => by rw [widenAll]; exact .more h1 (text_wide h2) h3 (elems_wide h4)
theorem members_wide {F : Floats} : ∀ {t : Name} {l : List (Name × JVal)}, JMembers F t l →
    JMembersOf WideBody F t (widenEntries l)
  | _, _, .one h1 h2 h3 h4 h5 h6 => by
    rw [widenEntries, widenEntries]; exact .one h1 (string_wide h2) h3 h4 (text_wide h5) h6
  | _, _, .more h1 h2 h3 h4 h5 h6 h7 => by
    rw [widenEntries]; exact .more h1 (string_wide h2) h3 h4 (text_wide h5) h6 (members_wide h7)
end

theorem doc_wide {F : Floats} {text : Name} {v : JVal} (h : JDoc F text v) : WideDoc F text (widen v) := by
  obtain ⟨g, t, g', e, hg, ht, hg'⟩ := h
  exact ⟨g, t, g', e, hg, text_wide ht, hg'⟩

theorem codes_dictGet {V W : Type} (f : V → W) (d : List (Name × V)) (k : Name) :
    dictGet (d.map (fun e => (codes e.1, f e.2))) (codes k) = (dictGet d k).map f := by
  induction d with
  | nil => rfl
  | cons e d ih =>
    obtain ⟨k', v'⟩ := e
    rw [List.map_cons, dictGet, dictGet]
    by_cases h : k' = k
    · rw [if_pos h, if_pos (by rw [h])]; rfl
    · rw [if_neg h, if_neg (fun h' => h (codes_injective h')), ih]

theorem tuple_wide {v : JVal} : jsonTuple (widen v) = (jsonTuple v).map (List.map widen) := by
  cases v with
  | arr l => rw [widen, jsonTuple, jsonTuple, widenAll_eq]; rfl
  | str s =>
    rw [widen, jsonTuple, jsonTuple]
    simp [Except.map, codes, widen]
  | obj l =>
    rw [widen, jsonTuple, jsonTuple, widenEntries_eq]
    simp [Except.map, widen]
  | _ => rw [widen]; rfl

theorem codings_wide (l : List (Name × JVal)) (acc : List (Name × List JVal)) :
    readCodings (widenEntries l) (acc.map (fun e => (codes e.1, e.2.map widen))) =
      (readCodings l acc).map (List.map (fun e => (codes e.1, e.2.map widen))) := by
  induction l generalizing acc with
  | nil => rfl
  | cons e l ih =>
    obtain ⟨k, v⟩ := e
    rw [widenEntries]
    unfold readCodings at ih ⊢
    rw [forLoop, forLoop]
    simp only [tuple_wide]
    cases jsonTuple v with
    | error e => rfl
    | ok t =>
      simp only [Except.map]
      rw [← codes_dictSet (List.map widen)]
      exact ih (dictSet acc k t)

theorem items_wide (l : List (Name × JVal)) (d : DS (List JVal)) :
    readItemsWide (widenEntries l) (widenDataset d) = (readItems l d).map widenDataset := by
  induction l generalizing d with
  | nil => rfl
  | cons e l ih =>
    obtain ⟨k, v⟩ := e
    rw [widenEntries]
    unfold readItemsWide readItems at ih ⊢
    rw [forLoop, forLoop]
    cases v with
    | obj cs =>
      simp only [widen]
      have hc := codings_wide cs []
      rw [List.map_nil] at hc
      rw [hc]
      cases readCodings cs [] with
      | error e => rfl
      | ok codings =>
        have e1 : widenDataset (d.setItem k codings) =
            ⟨dictSet (widenDataset d).items (codes k) (codings.map (fun e => (codes e.1, e.2.map widen))),
              (widenDataset d).properties⟩ := by
          unfold widenDataset DS.setItem
          simp only
          rw [codes_dictSet (List.map (fun e : Name × List JVal => (codes e.1, e.2.map widen)))]
        have := ih (d.setItem k codings)
        rw [e1] at this
        exact this
    | _ => rw [widen]; rfl

/-- Both loaders agree on values without lone surrogates. -/
theorem load_wide {F : Floats} {text : Name} {v : JVal} {d : DS (List JVal)} (ht : JText F text v)
    (h : inputJson (some v) = .ok d) : loadWide (widen v) = .ok (widenDataset d) := by
  obtain ⟨entries, rfl, hs, its, hi, _⟩ := (inputJson_ok_iff ht).1 ⟨d, h⟩
  rw [inputJson_linear hs hi] at h
  rw [widen, widenEntries_eq]
  have e1 := codes_dictGet widen entries kSegType
  have e2 := codes_dictGet widen entries kItems
  rw [hs] at e1
  rw [hi] at e2
  simp only [Option.map_some, widen] at e1 e2
  rw [loadWide_linear e1 e2]
  have := items_wide its { properties := entries.filter (fun e => decide (e.1 ≠ kItems)) }
  rw [h] at this
  rw [← show (Except.ok d : Py (DS (List JVal))).map widenDataset = .ok (widenDataset d) from rfl, ← this]
  congr 1
  unfold widenDataset
  simp only [List.map_nil, WideDataset.mk.injEq, true_and]
  rw [List.filter_map]
  congr 1
  apply List.filter_congr
  intro e _
  simp [codes_injective.eq_iff]

end SegEval
