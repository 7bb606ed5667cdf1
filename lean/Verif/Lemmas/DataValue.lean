import Verif.Spec.Data
import Verif.Lemmas.Compute

namespace SegEval

open Spec

variable {V : Type _}

/-! ## Dicts of dicts as lists of codings -/

theorem dictSet_dictSet {κ α : Type _} [DecidableEq κ] (d : List (κ × α)) (k : κ) (v w : α) :
    dictSet (dictSet d k v) k w = dictSet d k w := by
  induction d with
  | nil => simp [dictSet]
  | cons e es ih =>
    obtain ⟨k', v'⟩ := e
    by_cases h : k' = k
    · simp [dictSet, h]
    · simp [dictSet, h, ih]

theorem dictKeys_dictSet_nodup {κ α : Type _} [DecidableEq κ] {d : List (κ × α)} {k : κ} {v : α}
    (h : (d.map Prod.fst).Nodup) : ((dictSet d k v).map Prod.fst).Nodup := by
  cases hg : dictGet d k with
  | none =>
    rw [dictSet_new hg, List.map_append, List.nodup_append]
    refine ⟨h, by simp, ?_⟩
    intro a ha b hb
    simp only [List.map_cons, List.map_nil, List.mem_singleton] at hb
    obtain ⟨e, he, rfl⟩ := List.mem_map.1 ha
    rw [hb]
    exact dictGet_none_iff.1 hg e he
  | some v0 =>
    obtain ⟨pre, post, e1, e2⟩ := dictSet_split hg
    rw [e2 v]
    rw [e1] at h
    simpa using h

/-- All codings, keyed by item and coder. -/
def flat (items : List (Name × List (Name × V))) : List ((Name × Name) × V) :=
  items.flatMap (fun it => it.2.map (fun c => ((it.1, c.1), c.2)))

theorem flat_cons (it : Name × List (Name × V)) (l : List (Name × List (Name × V))) :
    flat (it :: l) = it.2.map (fun c => ((it.1, c.1), c.2)) ++ flat l := rfl

theorem flat_append (l l' : List (Name × List (Name × V))) : flat (l ++ l') = flat l ++ flat l' :=
  List.flatMap_append

theorem mem_flat {items : List (Name × List (Name × V))} (h : IsDict2 items) {l c : Name} {v : V} :
    ((l, c), v) ∈ flat items ↔ Has items l c v := by
  unfold flat
  simp only [List.mem_flatMap, List.mem_map, Prod.mk.injEq]
  constructor
  · rintro ⟨it, hit, e, he, ⟨rfl, rfl⟩, rfl⟩
    exact ⟨it.2, dictGet_of_mem h.1 hit, dictGet_of_mem (h.2 it hit) he⟩
  · rintro ⟨cs, h1, h2⟩
    exact ⟨_, dictGet_mem h1, _, dictGet_mem h2, ⟨rfl, rfl⟩, rfl⟩

theorem flat_nodup {items : List (Name × List (Name × V))} (h : IsDict2 items) :
    ((flat items).map Prod.fst).Nodup := by
  induction items with
  | nil => simp [flat]
  | cons it rest ih =>
    obtain ⟨h1, h2⟩ := h
    rw [List.map_cons, List.nodup_cons] at h1
    rw [flat_cons, List.map_append, List.nodup_append]
    refine ⟨?_, ih ⟨h1.2, fun e he => h2 e (by simp [he])⟩, ?_⟩
    · have := h2 it (by simp)
      rw [List.map_map]
      have e : (Prod.fst ∘ fun c : Name × V => ((it.1, c.1), c.2)) = (fun x => (it.1, x)) ∘ Prod.fst := rfl
      rw [e, ← List.map_map]
      exact this.map (fun a b hab => (Prod.mk.inj hab).2)
    · rintro a ha b hb rfl
      simp only [List.map_map, List.mem_map, Function.comp_def] at ha
      obtain ⟨c, hc, rfl⟩ := ha
      simp only [flat, List.mem_map, List.mem_flatMap] at hb
      obtain ⟨x, ⟨it', hit', c', hc', rfl⟩, hx⟩ := hb
      simp only [Prod.mk.injEq] at hx
      exact h1.1 (List.mem_map.2 ⟨it', hit', hx.1⟩)

theorem mem_flat_keys {items : List (Name × List (Name × V))} (h : IsDict2 items) {l c : Name} :
    (l, c) ∈ (flat items).map Prod.fst ↔ ∃ v, Has items l c v := by
  simp only [List.mem_map]
  constructor
  · rintro ⟨⟨k, v⟩, hx, he⟩
    simp only at he
    subst he
    exact ⟨v, (mem_flat h).1 hx⟩
  · rintro ⟨v, hv⟩; exact ⟨_, (mem_flat h).2 hv, rfl⟩

/-- The items after `dataset[item][coder] = v`. -/
def putCoding (items : List (Name × List (Name × V))) (item coder : Name) (v : V) :
    List (Name × List (Name × V)) :=
  dictSet items item (dictSet ((dictGet items item).getD []) coder v)

theorem setCoding_eq (d : DS V) (item coder : Name) (v : V) :
    d.setCoding item coder v = { d with items := putCoding d.items item coder v } := by
  unfold DS.setCoding DS.getItem putCoding
  cases h : dictGet d.items item with
  | none =>
    simp only [DS.setItem, Option.getD_none, dictSet_dictSet]
  | some cs => simp only [DS.setItem, Option.getD_some]

theorem has_lookup {items : List (Name × List (Name × V))} {l c : Name} :
    (∃ v, Has items l c v) ↔ (dictGet ((dictGet items l).getD []) c).isSome := by
  unfold Has
  cases h : dictGet items l with
  | none => simp [dictGet]
  | some cs =>
    simp only [Option.some.injEq, Option.getD_some, Option.isSome_iff_exists]
    constructor
    · rintro ⟨v, cs', rfl, hv⟩; exact ⟨v, hv⟩
    · rintro ⟨v, hv⟩; exact ⟨v, cs, rfl, hv⟩

theorem dict2_set {items : List (Name × List (Name × V))} (h : IsDict2 items) (item : Name)
    {cs : List (Name × V)} (hc : (cs.map Prod.fst).Nodup) : IsDict2 (dictSet items item cs) := by
  refine ⟨dictKeys_dictSet_nodup h.1, ?_⟩
  cases hg : dictGet items item with
  | none =>
    rw [dictSet_new hg]
    intro e he
    rcases List.mem_append.1 he with he | he
    · exact h.2 e he
    · rw [List.mem_singleton.1 he]; exact hc
  | some cs0 =>
    obtain ⟨pre, post, e1, e2⟩ := dictSet_split hg
    rw [e2 cs]
    intro e he
    rcases List.mem_append.1 he with he' | he'
    · exact h.2 e (by rw [e1]; simp [he'])
    · rcases List.mem_cons.1 he' with rfl | he'
      · exact hc
      · exact h.2 e (by rw [e1]; simp [he'])

theorem getD_nodup {items : List (Name × List (Name × V))} (h : IsDict2 items) (item : Name) :
    (((dictGet items item).getD []).map Prod.fst).Nodup := by
  cases hg : dictGet items item with
  | none => simp
  | some cs => exact h.2 _ (dictGet_mem hg)

theorem putCoding_dict {items : List (Name × List (Name × V))} (h : IsDict2 items)
    (item coder : Name) (v : V) : IsDict2 (putCoding items item coder v) :=
  dict2_set h item (dictKeys_dictSet_nodup (getD_nodup h item))

theorem putCoding_flat {items : List (Name × List (Name × V))} {item coder : Name} (v : V)
    (h : ¬ ∃ v, Has items item coder v) :
    (flat (putCoding items item coder v)).Perm (flat items ++ [((item, coder), v)]) := by
  rw [has_lookup, Bool.not_eq_true, Option.isSome_eq_false_iff, Option.isNone_iff_eq_none] at h
  unfold putCoding
  rw [dictSet_new h]
  cases hg : dictGet items item with
  | none =>
    rw [dictSet_new hg, flat_append]
    simp [flat]
  | some cs =>
    obtain ⟨pre, post, e1, e2⟩ := dictSet_split hg
    rw [e2]
    simp only [Option.getD_some]
    rw [e1, flat_append, flat_append, flat_cons, flat_cons]
    simp only [List.map_append, List.map_cons, List.map_nil, List.append_assoc]
    refine List.Perm.append_left _ (List.Perm.append_left _ ?_)
    exact List.perm_append_comm

/-! ## `__iadd__` -/

/-- The loop over one item. -/
structure Added (d d' : DS V) (done : List ((Name × Name) × V)) (extra : List Name) : Prop where
  dict : IsDict2 d'.items
  perm : (flat d'.items).Perm (flat d.items ++ done)
  coders : ∀ c, c ∈ d'.coders ↔ c ∈ d.coders ∨ c ∈ done.map (fun x => x.1.2) ∨ c ∈ extra
  properties : d'.properties = d.properties
  types : d'.boundaryTypes = d.boundaryTypes
  format : d'.boundaryFormat = d.boundaryFormat

theorem Added.trans {d1 d2 d3 : DS V} {l l' : List ((Name × Name) × V)} {x : List Name}
    (h : Added d1 d2 l []) (h' : Added d2 d3 l' x) : Added d1 d3 (l ++ l') x where
  dict := h'.dict
  perm := by
    rw [← List.append_assoc]
    exact h'.perm.trans (h.perm.append_right l')
  coders c := by
    rw [h'.coders, h.coders, List.map_append, List.mem_append]
    simp only [List.not_mem_nil, or_false]
    tauto
  properties := h'.properties.trans h.properties
  types := h'.types.trans h.types
  format := h'.format.trans h.format

theorem Added.refl {d : DS V} (h : IsDict2 d.items) : Added d d [] [] where
  dict := h
  perm := by simp
  coders c := by simp
  properties := rfl
  types := rfl
  format := rfl

/-- How adding the codings `l` ends: all added, or stopped at the first whose key is taken. -/
def Outcome (d : DS V) (l : List ((Name × Name) × V)) (r : DS V × Option PyErr) : Prop :=
  (r.2 = none ∧ Added d r.1 l [] ∧ ((flat d.items ++ l).map Prod.fst).Nodup) ∨
  (r.2 = some .dataIOError ∧ ∃ done x rest, l = done ++ x :: rest ∧ Added d r.1 done [x.1.2] ∧
    ((flat d.items ++ done).map Prod.fst).Nodup ∧ x.1 ∈ (flat d.items ++ done).map Prod.fst)

theorem Outcome.cons {d d1 : DS V} {pre l : List ((Name × Name) × V)} {r : DS V × Option PyErr}
    (h1 : Added d d1 pre []) (h2 : Outcome d1 l r) : Outcome d (pre ++ l) r := by
  have hp : ∀ m, ((flat d1.items ++ m).map Prod.fst).Perm ((flat d.items ++ (pre ++ m)).map Prod.fst) := by
    intro m
    apply List.Perm.map
    rw [← List.append_assoc]
    exact h1.perm.append_right m
  rcases h2 with ⟨a1, a2, a3⟩ | ⟨a1, done, x, rest, rfl, a2, a3, a4⟩
  · exact Or.inl ⟨a1, h1.trans a2, (hp l).nodup_iff.1 a3⟩
  · refine Or.inr ⟨a1, pre ++ done, x, rest, by simp, h1.trans a2, (hp done).nodup_iff.1 a3, ?_⟩
    exact (hp done).mem_iff.1 a4

theorem addCodings_outcome (d : DS V) (h : IsDict2 d.items) (item : Name) (cs : List (Name × V)) :
    Outcome d (cs.map (fun c => ((item, c.1), c.2))) (DS.addCodings d item cs) := by
  induction cs generalizing d with
  | nil => exact Or.inl ⟨rfl, Added.refl h, by simpa using flat_nodup h⟩
  | cons e rest ih =>
    obtain ⟨coder, v⟩ := e
    unfold DS.addCodings
    simp only
    cases hg : dictGet ((dictGet d.items item).getD []) coder with
    | some w =>
      simp only
      refine Or.inr ⟨rfl, [], _, _, rfl, ⟨h, by simp, ?_, rfl, rfl, rfl⟩, by simpa using flat_nodup h, ?_⟩
      · intro c
        simp only [Finset.mem_insert, List.map_nil, List.not_mem_nil, List.mem_singleton, false_or]
        tauto
      · rw [List.append_nil]
        exact (mem_flat_keys h).2 (has_lookup.2 (by rw [hg]; rfl))
    | none =>
      simp only
      have hno : ¬ ∃ v, Has d.items item coder v := by rw [has_lookup, hg]; simp
      rw [setCoding_eq]
      have hA : Added d
          { d with
            coders := insert coder d.coders
            items := putCoding d.items item coder v } [((item, coder), v)] [] := by
        refine ⟨putCoding_dict h item coder v, putCoding_flat v hno, ?_, rfl, rfl, rfl⟩
        intro c
        simp only [Finset.mem_insert, List.map_cons, List.map_nil, List.mem_singleton,
          List.not_mem_nil, or_false]
        tauto
      exact Outcome.cons hA (ih _ hA.dict)

/-- The codings of `items` under prefixed item names. -/
def pflat (prepend : Option (List Name)) (items : List (Name × List (Name × V))) :
    List ((Name × Name) × V) :=
  flat (items.map (fun it => (DS.prefixed prepend it.1, it.2)))

theorem iadd_outcome (prepend : Option (List Name)) (d : DS V) (h : IsDict2 d.items)
    (items : List (Name × List (Name × V))) :
    Outcome d (pflat prepend items) (DS.iadd prepend d items) := by
  induction items generalizing d with
  | nil => exact Or.inl ⟨rfl, Added.refl h, by simpa [pflat, flat] using flat_nodup h⟩
  | cons e rest ih =>
    obtain ⟨item0, cs⟩ := e
    unfold DS.iadd
    simp only
    set item := DS.prefixed prepend item0 with hitem
    set d1 := d.ensureItem item with hd1
    have h01 : Added d d1 [] [] := by
      rw [hd1, DS.ensureItem]
      cases hg : dictGet d.items item with
      | some _ => exact Added.refl h
      | none =>
        refine ⟨dict2_set h item (by simp), ?_, by simp [DS.setItem], rfl, rfl, rfl⟩
        simp only [DS.setItem]
        rw [dictSet_new hg, flat_append]
        simp [flat]
    have h12 := Outcome.cons h01 (addCodings_outcome d1 h01.dict item cs)
    rw [List.nil_append] at h12
    have hl : pflat prepend ((item0, cs) :: rest) =
        cs.map (fun c => ((item, c.1), c.2)) ++ pflat prepend rest := rfl
    rw [hl]
    cases hr : DS.addCodings d1 item cs with
    | mk d2 oe =>
      rw [hr] at h12
      cases oe with
      | none =>
        simp only
        rcases h12 with ⟨_, a2, a3⟩ | ⟨a1, _⟩
        · exact Outcome.cons a2 (ih d2 a2.dict)
        · cases a1
      | some e =>
        simp only
        rcases h12 with ⟨a1, _⟩ | ⟨a1, done, x, rest', a2, a3, a4, a5⟩
        · cases a1
        · refine Or.inr ⟨a1, done, x, rest' ++ pflat prepend rest, ?_, a3, a4, a5⟩
          rw [a2]; simp

theorem iadd_ok_iff (prepend : Option (List Name)) (d : DS V) (h : IsDict2 d.items)
    (items : List (Name × List (Name × V))) :
    (DS.iadd prepend d items).2 = none ↔
      ((flat d.items ++ pflat prepend items).map Prod.fst).Nodup := by
  rcases iadd_outcome prepend d h items with ⟨a1, _, a3⟩ | ⟨a1, done, x, rest, a2, _, _, a5⟩
  · exact ⟨fun _ => a3, fun _ => a1⟩
  · rw [a1]
    simp only [reduceCtorEq, false_iff]
    rw [a2, ← List.append_assoc, List.map_append, List.nodup_append]
    rintro ⟨_, _, h3⟩
    exact h3 _ a5 _ (by simp) rfl

/-! ## Item labels -/

theorem iadd_items (prepend : Option (List Name)) (d : DS V)
    (items : List (Name × List (Name × V))) (h : (DS.iadd prepend d items).2 = none) (label : Name) :
    HasItem (DS.iadd prepend d items).1.items label ↔
      HasItem d.items label ∨ ∃ it ∈ items, DS.prefixed prepend it.1 = label := by
  have hset : ∀ (its : List (Name × List (Name × V))) (k : Name) (cs : List (Name × V)),
      HasItem (dictSet its k cs) label ↔ HasItem its label ∨ k = label := by
    intro its k cs
    unfold HasItem
    rw [dictGet_set]
    by_cases hk : label = k
    · simp [hk]
    · simp only [hk, if_false]
      constructor
      · exact Or.inl
      · rintro (h | h)
        · exact h
        · exact absurd h.symm hk
  have hadd : ∀ (cs : List (Name × V)) (d : DS V) (item : Name), HasItem d.items item →
      (HasItem (DS.addCodings d item cs).1.items label ↔ HasItem d.items label) := by
    intro cs
    induction cs with
    | nil => intro d item _; exact Iff.rfl
    | cons e rest ih =>
      intro d item hi
      obtain ⟨coder, v⟩ := e
      unfold DS.addCodings
      simp only
      cases hg : dictGet ((dictGet d.items item).getD []) coder with
      | some w => exact Iff.rfl
      | none =>
        simp only
        rw [setCoding_eq, ih]
        · simp only [putCoding]
          rw [hset]
          constructor
          · rintro (h | rfl)
            · exact h
            · exact hi
          · exact Or.inl
        · refine ⟨dictSet ((dictGet d.items item).getD []) coder v, ?_⟩
          simp only [putCoding]
          rw [dictGet_set, if_pos rfl]
  induction items generalizing d with
  | nil => simp [DS.iadd]
  | cons e rest ih =>
    obtain ⟨item0, cs⟩ := e
    unfold DS.iadd at h ⊢
    simp only at h ⊢
    have h1 : ∀ l, HasItem (d.ensureItem (DS.prefixed prepend item0)).items l ↔
        HasItem d.items l ∨ DS.prefixed prepend item0 = l := by
      intro l
      unfold DS.ensureItem
      cases hg : dictGet d.items (DS.prefixed prepend item0) with
      | some x =>
        constructor
        · exact Or.inl
        · rintro (h | rfl)
          · exact h
          · exact ⟨x, hg⟩
      | none =>
        simp only [DS.setItem]
        unfold HasItem
        rw [dictGet_set]
        by_cases hk : l = DS.prefixed prepend item0
        · simp [hk]
        · simp only [hk, if_false]
          constructor
          · exact Or.inl
          · rintro (h | h)
            · exact h
            · exact absurd h.symm hk
    revert h
    generalize d.ensureItem (DS.prefixed prepend item0) = d1 at h1
    intro h
    have h2 := hadd cs d1 (DS.prefixed prepend item0) ((h1 _).2 (Or.inr rfl))
    cases hr : DS.addCodings d1 (DS.prefixed prepend item0) cs with
    | mk d2 oe =>
      rw [hr] at h h2
      cases oe with
      | some e => simp only at h; cases h
      | none =>
        simp only at h h2 ⊢
        refine (ih d2 h).trans ?_
        rw [h2, h1]
        simp only [List.mem_cons, exists_eq_or_imp]
        tauto

end SegEval
