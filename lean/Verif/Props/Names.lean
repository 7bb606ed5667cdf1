import Verif.Lemmas.Names
import Verif.Lemmas.WindowEval
import Verif.Lemmas.JsonWrite
import Verif.Props.JsonWide

/-!
# C97–C99: names that are ints, and saving what cannot be saved
-/

namespace SegEval.Props

open SegEval Spec

/-! ## C97 -/

/-- C97: coders may be ints: every pairwise computation gives what it gives after all coders are renamed to
strings, as long as no item has a coder `n` and a coder `'n'` and items are labelled with strings. -/
theorem C97_pairwise {R : Type _} (o : ClassOrder PyKey) : ∃ o' : ClassOrder Name,
    ∀ (f : Seg → Seg → Py R) (permuted : Bool) (a : ItemsK) (b : Option ItemsK),
      NoClash a → TextItems a → (∀ b' ∈ b, NoClash b' ∧ TextItems b') →
      computePairwiseValuesK o f permuted a b = computePairwiseValues o' f permuted (named a) (b.map named) :=
  ⟨strOrder o, fun f permuted _ _ ha ta hb =>
    pairwise_named o f permuted ha (fun b' h => (hb b' h).1) ta (fun b' h => (hb b' h).2)⟩

/-- C97: an item with coders `n`, `'n'` and a third has three pairs and only two results: the value for `n`
and the third coder is lost. -/
theorem C97_clash {R : Type _} (o : ClassOrder PyKey) {f : Seg → Seg → Py R} {l : Name} {n : ℤ} {c : PyKey}
    (hc : c.toStr ≠ intRepr n) {s t u : Seg} {x y z : R} (h1 : f s t = .ok x) (h2 : f s u = .ok y)
    (h3 : f t u = .ok z) :
    computePairwiseValuesK o f false
        [(.str l, [(.int n, s), (.str (intRepr n), t), (c, u)])] none =
      .ok [(l ++ ',' :: (intRepr n ++ ',' :: intRepr n), x), (l ++ ',' :: (intRepr n ++ ',' :: c.toStr), z)] := by
  have hord : o.order [] (labelSetK [(.str l, [(.int n, s), (.str (intRepr n), t), (c, u)])] none) =
      [.str l] := by
    have h1 := o.nodup [] (labelSetK [(.str l, [(.int n, s), (.str (intRepr n), t), (c, u)])] none)
    have h2 : ∀ k, k ∈ o.order [] (labelSetK [(.str l, [(.int n, s), (.str (intRepr n), t), (c, u)])] none) ↔
        k = .str l := by
      intro k
      rw [o.mem]
      simp [labelSetK, dictKeys]
    have h3 := (List.perm_ext_iff_of_nodup h1 (List.nodup_singleton (PyKey.str l))).2 (by simpa using h2)
    exact List.perm_singleton.1 h3
  have c1 : c ≠ .int n := by rintro rfl; exact hc rfl
  have c2 : c ≠ .str (intRepr n) := by rintro rfl; exact hc rfl
  have c3 : PyKey.toStr (.str (intRepr n)) = PyKey.toStr (.int n) := rfl
  have c4 : PyKey.toStr (.int n) ≠ c.toStr := hc.symm
  have e : intRepr n = PyKey.toStr (.int n) := rfl
  unfold computePairwiseValuesK
  rw [hord]
  simp only [forLoop, perLabelK, dictGet, labelPairsK, dictKeys, List.map, combinations2, pairStepK, entryKeyK,
    joinComma, h1, h2, h3, c1.symm, c2.symm, c3, if_true, if_false, Bool.false_and,
    List.cons_append, List.nil_append, List.append_nil, reduceCtorEq]
  simp [dictSet, dictUpdate, c4, e]

/-- C97: items may not be ints: if an item labelled with an int has two coders or more, every pairwise
computation raises, whatever the metric; it raises `TypeError` if the metric does not raise. -/
theorem C97_int_item {R : Type _} (o : ClassOrder PyKey) (f : Seg → Seg → Py R) (permuted : Bool) {a : ItemsK}
    (hd : IsDictK a) {n : ℤ} {cs : CodingsK} (hi : (PyKey.int n, cs) ∈ a) (h2 : 2 ≤ cs.length) :
    (∃ e, computePairwiseValuesK o f permuted a none = .error e) ∧
    ((∀ s t, ∃ v, f s t = .ok v) → computePairwiseValuesK o f permuted a none = .error .typeError) := by
  have hbad : ∀ acc, perLabelK f permuted a none acc (.int n) = .error .typeError := by
    intro acc
    unfold perLabelK
    rw [dictGet_of_mem hd.1 hi]
    obtain ⟨⟨m1, s1⟩, ⟨m2, s2⟩, rest, rfl⟩ : ∃ x y rest, cs = x :: y :: rest := by
      match cs, h2 with
      | x :: y :: rest, _ => exact ⟨x, y, rest, rfl⟩
    have hne : m1 ≠ m2 := by
      have := hd.2 _ hi
      simp only [dictKeys, List.map_cons, List.nodup_cons, List.mem_cons, not_or] at this
      exact this.1.1
    have : labelPairsK f (.int n) permuted false ((m1, s1) :: (m2, s2) :: rest) ((m1, s1) :: (m2, s2) :: rest)
        (combinations2 (dictKeys ((m1, s1) :: (m2, s2) :: rest))) = .error .typeError := by
      simp [labelPairsK, dictKeys, combinations2, forLoop, pairStepK, dictGet, hne, entryKeyK]
    simp only [this]
  have hmem : PyKey.int n ∈ o.order [] (labelSetK a none) := by
    rw [o.mem, mem_labelSetK]
    simpa using mem_dictKeys.2 ⟨cs, dictGet_of_mem hd.1 hi⟩
  refine ⟨forLoop_raises _ _ _ hmem (fun s => ⟨_, hbad s⟩) _, fun hf => ?_⟩
  refine forLoop_error _ _ _ ?_ _ hmem hbad _
  intro acc l hl
  rw [o.mem, mem_labelSetK] at hl
  have hl : l ∈ dictKeys a := by simpa using hl
  obtain ⟨cm, hcm⟩ := mem_dictKeys.1 hl
  unfold perLabelK
  rw [hcm]
  have pairs : ∀ p ∈ combinations2 (dictKeys cm), p.1 ∈ dictKeys cm ∧ p.2 ∈ dictKeys cm := by
    intro p hp
    have := (mem_combinations2 _ _ _).1 hp
    exact ⟨this.subset (by simp), this.subset (by simp)⟩
  have : (∃ r, labelPairsK f l permuted false cm cm (combinations2 (dictKeys cm)) = .ok r) ∨
      labelPairsK f l permuted false cm cm (combinations2 (dictKeys cm)) = .error .typeError := by
    have step : ∀ acc, ∀ p ∈ combinations2 (dictKeys cm),
        match l with
        | .str _ => ∃ r, pairStepK f l permuted false cm cm acc p = .ok r
        | .int _ => pairStepK f l permuted false cm cm acc p = .error .typeError := by
      intro acc p hp
      obtain ⟨h1, h2⟩ := pairs p hp
      obtain ⟨s1, h1⟩ := mem_dictKeys.1 h1
      obtain ⟨s2, h2⟩ := mem_dictKeys.1 h2
      obtain ⟨v, hv⟩ := hf s1 s2
      obtain ⟨w, hw⟩ := hf s2 s1
      cases l with
      | str l =>
        cases permuted <;> simp [pairStepK, h1, h2, entryKeyK, hv, hw]
      | int m => simp [pairStepK, h1, h2, entryKeyK]
    unfold labelPairsK
    cases l with
    | str l => exact Or.inl (forLoop_total _ _ step _)
    | int m =>
      cases hc : combinations2 (dictKeys cm) with
      | nil => exact Or.inl ⟨_, rfl⟩
      | cons p ps =>
        right
        have := step [] p (by rw [hc]; simp)
        simp only at this
        simp only [forLoop, this]
  rcases this with ⟨r, h⟩ | h
  · left
    exact ⟨dictUpdate acc r, by simp only [h]⟩
  · right
    simp only [h]

/-- A string for each key, for one concrete order of labels. -/
def keyCode : PyKey → Name
  | .int n => 'i' :: intRepr n
  | .str s => 's' :: s

theorem keyCode_inj {a b : PyKey} (h : keyCode a = keyCode b) : a = b := by
  cases a <;> cases b <;> simp only [keyCode, List.cons.injEq, Char.reduceEq, false_and, true_and] at h
  · rw [intRepr_inj h]
  · rw [h]

instance : Std.Total (fun a b : PyKey => keyCode a ≤ keyCode b) := ⟨fun a b => List.le_total (keyCode a) (keyCode b)⟩

instance : IsTrans PyKey (fun a b : PyKey => keyCode a ≤ keyCode b) := ⟨fun _ _ _ => List.le_trans⟩

instance : Std.Antisymm (fun a b : PyKey => keyCode a ≤ keyCode b) :=
  ⟨fun _ _ h h' => keyCode_inj (List.le_antisymm h h')⟩

/-- Labels in order. -/
def ascK : ClassOrder PyKey := ClassOrder.sorted (fun a b : PyKey => keyCode a ≤ keyCode b)

/-- An item coded by 1, 10 and `'m'`, and one coded by -2 and 1. -/
def exInts : ItemsK := [(.str nX, [(.int 1, mass [2, 3]), (.int 10, mass [5]), (.str nM, mass [1, 4])]),
  (.str nY, [(.int (-2), mass [2, 2, 1]), (.int 1, mass [5])])]

theorem exInts_clash : NoClash exInts ∧ TextItems exInts := by
  constructor
  · intro it hi n hn
    simp only [exInts, List.mem_cons, List.not_mem_nil, or_false] at hi
    rcases hi with rfl | rfl
    · simp only [dictKeys, List.map_cons, List.map_nil, List.mem_cons, PyKey.int.injEq, reduceCtorEq,
        List.not_mem_nil, or_false] at hn
      rcases hn with rfl | rfl <;> decide +kernel
    · simp only [dictKeys, List.map_cons, List.map_nil, List.mem_cons, PyKey.int.injEq,
        List.not_mem_nil, or_false] at hn
      rcases hn with rfl | rfl <;> decide +kernel
  · intro it hi
    simp only [exInts, List.mem_cons, List.not_mem_nil, or_false] at hi
    rcases hi with rfl | rfl
    · exact ⟨_, rfl⟩
    · exact ⟨_, rfl⟩

/-- C97 at an example. -/
example : NoClash exInts ∧ TextItems exInts ∧ computePairwiseValuesK ascK lens false exInts none =
    .ok [("x,1,10".toList, (2, 1)), ("x,1,m".toList, (2, 2)), ("x,10,m".toList, (1, 2)),
      ("y,-2,1".toList, (3, 1))] :=
  ⟨exInts_clash.1, exInts_clash.2, by decide +kernel⟩

/-- Coders 1, `'1'` and 2: three pairs, two results. -/
example : PyKey.toStr (.int 2) ≠ intRepr 1 ∧ computePairwiseValuesK ascK lens false
    [(.str nX, [(.int 1, mass [2, 3]), (.str ['1'], mass [5]), (.int 2, mass [1, 1, 3])])] none =
    .ok [("x,1,1".toList, (2, 1)), ("x,1,2".toList, (1, 3))] := by decide +kernel

/-- An item labelled 7. -/
example : computePairwiseValuesK ascK lens false
    [(.str nX, [(.int 1, mass [2, 3]), (.int 2, mass [5])]),
      (.int 7, [(.int 1, mass [2, 3]), (.int 2, mass [5])])] none = .error .typeError := by decide +kernel

/-! ## C98 -/

/-- C98: saving fails exactly if a coding has boundary sets, if the items, or the coders of an item, are
ints as well as strings, or if a property has an int for a name or a value that cannot be written.  The
exception is `TypeError`. -/
theorem C98_fails {d : DatasetK} (hp : (dictKeys d.properties).Nodup)
    (hi : dictGet d.properties (.str kItems) = none) :
    ((outputLinearMassJson d).failed ≠ none ↔
      ¬ OneKind (dictKeys d.items) ∨
      (∃ it ∈ d.items, ¬ OneKind (dictKeys it.2) ∨ ∃ c ∈ it.2, ∃ l, l ≠ [] ∧ c.2 = .sets l) ∨
      ∃ e ∈ d.properties, (∃ n, e.1 = .int n) ∨ Unwritable e.2) ∧
    ∀ e, (outputLinearMassJson d).failed = some e → e = .typeError := by
  constructor
  · rw [outputK_failed, outputK_unwritable hp hi, unwritable_items_iff, or_assoc]
  · intro e he
    have hu := (outputK_failed d).1 (by rw [he]; simp)
    have := ((writes 0 (outputDataK d)).2 hu).1
    unfold outputLinearMassJson at he
    rw [he] at this
    cases this
    rfl

/-- C98: what was saved without failure is loaded with the same items, codings and properties, except that
every name is now a string. -/
theorem C98_round_trip (F : Floats) {d : DatasetK} (hd : IsDictK d.items) (hp : PyVal F (.obj d.properties))
    (hi : dictGet d.properties (.str kItems) = none)
    (hs : ∀ v, dictGet d.properties (.str kSegType) = some v → v = .str kLinear)
    (hf : (outputLinearMassJson d).failed = none) :
    ∃ d', inputJsonText F (outputLinearMassJson d).text = .ok d' ∧ IsDict2 d'.items ∧
      (∀ l, HasItem d'.items l ↔ ∃ k ∈ dictKeys d.items, k.toStr = l) ∧
      (∀ l m t, Has d'.items l m t ↔ ∃ kl km cs s, dictGet d.items kl = some cs ∧ dictGet cs km = some s ∧
        kl.toStr = l ∧ km.toStr = m ∧ ReadBack s t) ∧
      SameJson (.obj d'.properties)
        (asJson (.obj (dictSet d.properties (.str kSegType) (.str kLinear)))) := by
  obtain ⟨hu, v, ht, hv⟩ := outputK_doc F hd hp hf
  have hn : (d.properties.map Prod.fst).Nodup := by cases hp; assumption
  obtain ⟨entries, rfl⟩ := same_is_obj (l := asEntries _) hv
  have hcond := (outputK_unwritable hn hi).not.1 hu
  push Not at hcond
  have strs : ∀ e ∈ d.properties, ∃ s, e.1 = .str s := by
    intro e he
    cases hek : e.1 with
    | int n => exact absurd hek ((hcond.2 e he).1 n)
    | str s => exact ⟨s, rfl⟩
  have strs1 : ∀ e ∈ dictSet d.properties (.str kSegType) (.str kLinear), ∃ s, e.1 = .str s := by
    intro e he
    rcases mem_dictSet_or he with he | he
    · rw [he]; exact ⟨_, rfl⟩
    · exact strs e he
  have strs2 : ∀ e ∈ dictUpdate (dictSet [(.str kSegType, .str kLinear)] (.str kItems) (itemsToPVal d.items))
      d.properties, ∃ s, e.1 = .str s := by
    intro e he
    rcases mem_dictUpdate he with he | he
    · exact strs e he
    · rcases mem_dictSet_or he with he | he
      · rw [he]; exact ⟨_, rfl⟩
      · have : e = (.str kSegType, .str kLinear) := by simpa using he
        rw [this]; exact ⟨_, rfl⟩
  have get : ∀ k, dictGet (asEntries (dictUpdate (dictSet [(.str kSegType, .str kLinear)] (.str kItems)
      (itemsToPVal d.items)) d.properties)) k =
      if k = kItems then some (asJson (itemsToPVal d.items))
      else dictGet (asEntries (dictSet d.properties (.str kSegType) (.str kLinear))) k := by
    intro k
    rw [get_asEntries strs2, get_asEntries strs1, outputK_get hn hi hs]
    by_cases h : k = kItems
    · subst h; simp
    · simp [h]
  have same : ∀ k, (dictGet entries k = none ∧ dictGet (asEntries _) k = none) ∨
      ∃ v w, dictGet entries k = some v ∧ dictGet (asEntries _) k = some w ∧ SameJson v w := same_obj hv
  have hseg : dictGet entries kSegType = some (.str kLinear) := by
    have e : dictGet (asEntries (dictUpdate (dictSet [(.str kSegType, .str kLinear)] (.str kItems)
        (itemsToPVal d.items)) d.properties)) kSegType = some (.str kLinear) := by
      rw [get, if_neg (by decide), get_asEntries strs1, dictGet_set, if_pos rfl]
      rfl
    rcases same kSegType with ⟨_, h⟩ | ⟨v, w, h1, h2, h3⟩
    · rw [e] at h; cases h
    · rw [e] at h2
      cases h2
      rw [h1, same_leaf_str h3]
  obtain ⟨its, hits, hsame⟩ : ∃ its, dictGet entries kItems = some (.obj its) ∧
      SameJson (.obj its) (asJson (itemsToPVal d.items)) := by
    have e := get kItems
    rw [if_pos rfl] at e
    rcases same kItems with ⟨_, h⟩ | ⟨v, w, h1, h2, h3⟩
    · rw [e] at h; cases h
    · rw [e] at h2
      cases h2
      obtain ⟨its, rfl⟩ := same_is_obj (l := asEntries _) h3
      exact ⟨its, h1, h3⟩
  obtain ⟨b1, b2, b3⟩ := items_back hd hcond.1 hsame
  obtain ⟨ti, hti⟩ := (jtext_obj ht).2 _ (dictGet_mem hits)
  have hload : Loadable entries := by
    refine ⟨hseg, its, hits, ?_⟩
    intro e he
    obtain ⟨cs, h1, h2⟩ := b3 e.1 e.2 (dictGet_of_mem (jtext_obj hti).1 he)
    refine ⟨cs, h1, ?_⟩
    intro c hc
    obtain ⟨t, ht'⟩ := (jtext_obj hti).2 e he
    rw [h1] at ht'
    exact h2 c.1 c.2 (dictGet_of_mem (jtext_obj ht').1 hc)
  obtain ⟨d', hd'⟩ := (C85_paired_loads F _).2 ⟨entries, jdoc_of_text ht, hload⟩
  obtain ⟨entries', its', h1, h2, h3, h4, h5, h6⟩ := C85_paired_holds hd'
  have he := jdoc_unique h1 (jdoc_of_text ht)
  cases he
  rw [hits] at h2
  cases h2
  refine ⟨d', hd', h3, fun l => (h5 l).trans (b1 l), fun l m t => (h6 l m t).trans (b2 l m t), ?_⟩
  apply lookAt_obj_congr
  intro k
  rw [h4]
  by_cases hk : k = kItems
  · left
    subst hk
    rw [if_pos rfl, get_asEntries strs1, dictGet_set, if_neg (by decide), hi]
    exact ⟨rfl, rfl⟩
  · rw [if_neg hk]
    have := same k
    rw [get, if_neg hk] at this
    exact this

/-- The second item of the example, with a property that has ints for names. -/
def exIntsDs : DatasetK := ⟨exInts.drop 1, [(.str nY, .obj [(.int 3, .null), (.int 20, .float "1.5".toList)])]⟩

theorem exIntsDs_ok : IsDictK exIntsDs.items ∧ PyVal exFloats (.obj exIntsDs.properties) ∧
    dictGet exIntsDs.properties (.str kItems) = none ∧
    (∀ v, dictGet exIntsDs.properties (.str kSegType) = some v → v = .str kLinear) := by
  refine ⟨?_, ?_, by rfl, ?_⟩
  · unfold IsDictK
    decide +kernel
  · refine .obj (by decide) (.cons (.obj (by decide) (.cons .null (.cons (.float ?_) .nil))) .nil)
    exact Or.inl ⟨⟨[], 1, ['.', '5'], [], by decide, Or.inl rfl, Or.inr ⟨['5'], rfl, by decide, by decide⟩, Or.inl rfl,
      Or.inl (by decide)⟩, rfl⟩
  · intro v hv
    have h : dictGet exIntsDs.properties (.str kSegType) = none := by rfl
    rw [h] at hv
    cases hv

/-- Int names are sorted as ints when they are saved. -/
example : (outputLinearMassJson exIntsDs).failed = none ∧
    (outputLinearMassJson ⟨[(.str nX, [(.int 10, mass [5]), (.int 2, mass [2, 3])])], []⟩).text =
"{
    \"items\": {
        \"x\": {
            \"2\": [
                2,
                3
            ],
            \"10\": [
                5
            ]
        }
    },
    \"segmentation_type\": \"linear\"
}".toList := by decide +kernel

/-- C98 refuted for saving again: coders 2 and 10 are saved in this order, loaded as `'2'` and `'10'`, and
saved in the other order. -/
theorem C98_again_refuted : ∃ d d' : DatasetK, (outputLinearMassJson d).failed = none ∧
    d' = ⟨(named d.items).map (fun it => (.str it.1, it.2.map (fun c => (.str c.1, c.2)))), d.properties⟩ ∧
    (outputLinearMassJson d').text ≠ (outputLinearMassJson d).text :=
  ⟨⟨[(.str nX, [(.int 10, mass [5]), (.int 2, mass [2, 3])])], []⟩, _, by decide +kernel, rfl,
    by decide +kernel⟩

/-! ## C99 -/

/-- What a failed saving leaves behind is no document, with or without lone surrogates. -/
theorem failed_text (F : Floats) {d : DatasetK} (hf : (outputLinearMassJson d).failed ≠ none) {α : Type}
    [DecidableEq α] {B : Name → List α → Prop} (v : JV α) : ¬ JDocOf B F (outputLinearMassJson d).text v := by
  have hu := (outputK_failed d).1 hf
  have hb := (writes 0 (outputDataK d)).2 hu
  have hne : ∃ r, (outputLinearMassJson d).text = '{' :: r := by
    unfold outputLinearMassJson outputDataK
    cases h : dictUpdate (dictSet [(PyKey.str kSegType, PVal.str kLinear)] (.str kItems) (itemsToPVal d.items))
        d.properties with
    | nil =>
      unfold outputDataK at hu
      rw [h] at hu
      cases hu with
      | keys hk => exact absurd (Or.inl (fun k hk => by cases hk)) hk
      | entry hm _ => cases hm
    | cons e l =>
      rw [writeJson, ok_andThen]
      exact ⟨_, rfl⟩
  obtain ⟨r, hr⟩ := hne
  rw [hr]
  refine unfinished ?_ v
  rcases hb.2 with h | h
  · unfold outputLinearMassJson at hr
    rw [h] at hr
    cases hr
  · rw [← hr]
    exact h

/-- C99: if saving fails, the file no longer holds a document, so that it cannot be loaded: whatever it held
before is lost. -/
theorem C99_lost (F : Floats) {d : DatasetK} (hf : (outputLinearMassJson d).failed ≠ none) :
    (∀ v, ¬ WideDoc F (outputLinearMassJson d).text v) ∧
      ∀ d', inputJsonWide F (outputLinearMassJson d).text ≠ .ok d' := by
  refine ⟨fun v => failed_text F hf v, ?_⟩
  intro d' h
  obtain ⟨entries, h1, _⟩ := (C85_loads F _).1 ⟨d', h⟩
  exact failed_text F hf _ h1

/-- C99: loading what a failed saving left behind raises `DataIOError`. -/
theorem C99_raises (F : Floats) {d : DatasetK} (hf : (outputLinearMassJson d).failed ≠ none) :
    inputJsonWide F (outputLinearMassJson d).text = .error .dataIOError :=
  C85_malformed (C99_lost F hf).1

/-- Boundary sets, as in the sample `MULTIPLE_BOUNDARY_TYPES`: the file breaks off before the first set. -/
example : (outputLinearMassJson ⟨[(.str nX, [(.str nM, .sets [{1}, ∅])])], []⟩).failed = some .typeError ∧
    (outputLinearMassJson ⟨[(.str nX, [(.str nM, .sets [{1}, ∅])])], []⟩).text =
"{
    \"items\": {
        \"x\": {
            \"m\": [
                ".toList := by decide +kernel

/-- Coders 1 and `'m'`. -/
example : (outputLinearMassJson ⟨exInts.take 1, []⟩).failed = some .typeError ∧
    (outputLinearMassJson ⟨exInts.take 1, []⟩).text =
"{
    \"items\": {
        \"x\": {
            ".toList := by decide +kernel

end SegEval.Props
