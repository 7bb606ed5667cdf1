import Verif.Lemmas.DataHistory

namespace SegEval

open Spec

/-! ## Sorting keys -/

theorem insertEntry_get (e : Name × JVal) (l : List (Name × JVal)) (k : Name) :
    dictGet (insertEntry e l) k = if e.1 = k then some e.2 else dictGet l k := by
  induction l with
  | nil => rfl
  | cons x rest ih =>
    unfold insertEntry
    split
    · rename_i hlt
      rw [dictGet, dictGet, ih]
      by_cases hx : x.1 = k
      · rw [if_pos hx, if_pos hx, if_neg]
        rintro rfl
        rw [hx] at hlt
        exact absurd hlt (List.lt_irrefl _)
      · rw [if_neg hx, if_neg hx]
    · rfl

theorem insertEntry_keys (e : Name × JVal) (l : List (Name × JVal)) :
    ((insertEntry e l).map Prod.fst).Perm (e.1 :: l.map Prod.fst) := by
  induction l with
  | nil => exact List.Perm.refl _
  | cons x rest ih =>
    unfold insertEntry
    split
    · exact (ih.cons _).trans (List.Perm.swap ..)
    · exact List.Perm.refl _

theorem sortEntries_get (l : List (Name × JVal)) (k : Name) :
    dictGet (sortEntries l) k = (dictGet l k).map sortKeys := by
  induction l with
  | nil => rw [sortEntries]; rfl
  | cons e es ih =>
    obtain ⟨k', v⟩ := e
    rw [sortEntries, insertEntry_get, ih, dictGet]
    by_cases h : k' = k
    · simp [h]
    · simp [h]

theorem sortEntries_keys (l : List (Name × JVal)) :
    ((sortEntries l).map Prod.fst).Perm (l.map Prod.fst) := by
  induction l with
  | nil => rw [sortEntries]
  | cons e es ih =>
    obtain ⟨k', v⟩ := e
    rw [sortEntries]
    exact (insertEntry_keys _ _).trans (ih.cons _)

theorem sortAll_eq (l : List JVal) : sortAll l = l.map sortKeys := by
  induction l with
  | nil => rw [sortAll]; rfl
  | cons v vs ih => rw [sortAll, ih]; rfl

theorem lookAt_sortKeys (p : List Step) (v : JVal) : lookAt p (sortKeys v) = lookAt p v := by
  induction p generalizing v with
  | nil =>
    cases v with
    | arr l => simp [sortKeys, lookAt, shape, sortAll_eq]
    | obj l => simp [sortKeys, lookAt, shape]
    | _ => simp [sortKeys]
  | cons s p ih =>
    cases v with
    | arr l =>
      rw [sortKeys, sortAll_eq]
      cases s with
      | key k => rfl
      | idx i =>
        simp only [lookAt, List.getElem?_map]
        cases l[i]? with
        | none => rfl
        | some v => exact ih v
    | obj l =>
      rw [sortKeys]
      cases s with
      | idx i => rfl
      | key k =>
        simp only [lookAt, sortEntries_get]
        cases dictGet l k with
        | none => rfl
        | some v => exact ih v
    | _ => rw [sortKeys]

/-! ## Reading items -/

/-- The codings of an item that were read. -/
theorem readCodings_get {α : Type} [DecidableEq α] (l : List (List α × JV α))
    (hl : ∀ e ∈ l, ∃ t, jsonTuple e.2 = .ok t) (acc : List (List α × List (JV α))) :
    ∃ out, readCodings l acc = .ok out ∧
      ((acc.map Prod.fst).Nodup → (out.map Prod.fst).Nodup) ∧
      ((l.map Prod.fst).Nodup → ∀ k, dictGet out k =
        match dictGet l k with
        | some v => (jsonTuple v).toOption
        | none => dictGet acc k) := by
  induction l generalizing acc with
  | nil => exact ⟨acc, rfl, id, fun _ _ => rfl⟩
  | cons e es ih =>
    obtain ⟨t, ht⟩ := hl e (List.mem_cons_self ..)
    obtain ⟨out, h1, h2, h3⟩ := ih (fun x hx => hl x (List.mem_cons_of_mem _ hx)) (dictSet acc e.1 t)
    refine ⟨out, ?_, fun h => h2 (dictKeys_dictSet_nodup h), ?_⟩
    · unfold readCodings
      rw [forLoop]
      simp only [ht]
      exact h1
    · intro hnd k
      rw [List.map_cons, List.nodup_cons] at hnd
      rw [h3 hnd.2 k, dictGet, dictGet_set]
      by_cases hk : e.1 = k
      · subst hk
        have : dictGet es e.1 = none := dictGet_none_iff.2 fun x hx he =>
          hnd.1 (List.mem_map.2 ⟨x, hx, he⟩)
        simp [this, ht, Except.toOption]
      · rw [if_neg hk]
        cases dictGet es k with
        | some v => rfl
        | none => simp [Ne.symm hk]

/-- An entry that can be read as an item. -/
def Readable {α : Type} (v : JV α) : Prop :=
  ∃ cs, v = .obj cs ∧ (cs.map Prod.fst).Nodup ∧ ∀ e ∈ cs, ∃ t, jsonTuple e.2 = .ok t

theorem readItems_get (l : List (Name × JVal)) (hl : ∀ e ∈ l, Readable e.2)
    (hnd : (l.map Prod.fst).Nodup) (d : DS (List JVal)) :
    ∃ d', readItems l d = .ok d' ∧ d'.properties = d.properties ∧ d'.coders = d.coders ∧
      d'.boundaryTypes = d.boundaryTypes ∧ d'.boundaryFormat = d.boundaryFormat ∧
      (IsDict2 d.items → IsDict2 d'.items) ∧
      (∀ k, HasItem d'.items k ↔ (∃ v, dictGet l k = some v) ∨ HasItem d.items k) ∧
      ∀ k m t, Has d'.items k m t ↔
        (∃ cs v, dictGet l k = some (.obj cs) ∧ dictGet cs m = some v ∧ jsonTuple v = .ok t) ∨
        (dictGet l k = none ∧ Has d.items k m t) := by
  induction l generalizing d with
  | nil =>
    refine ⟨d, rfl, rfl, rfl, rfl, rfl, id, ?_, ?_⟩
    · intro k; simp [dictGet]
    · intro k m t; simp [dictGet]
  | cons e es ih =>
    obtain ⟨cs, hv, hcs, ht⟩ := hl e (List.mem_cons_self ..)
    obtain ⟨out, r1, r2, r3⟩ := readCodings_get cs ht []
    rw [List.map_cons, List.nodup_cons] at hnd
    obtain ⟨d', h1, h2, h3, h4, h5, h6, h7, h8⟩ :=
      ih (fun x hx => hl x (List.mem_cons_of_mem _ hx)) hnd.2 (d.setItem e.1 out)
    have hnone : dictGet es e.1 = none := dictGet_none_iff.2 fun x hx he =>
      hnd.1 (List.mem_map.2 ⟨x, hx, he⟩)
    refine ⟨d', ?_, h2, h3, h4, h5, ?_, ?_, ?_⟩
    · unfold readItems
      rw [forLoop]
      simp only [hv, r1]
      exact h1
    · intro hd
      apply h6
      refine ⟨dictKeys_dictSet_nodup hd.1, ?_⟩
      intro x hx
      rcases mem_dictSet hx with hx | rfl
      · exact hd.2 x hx
      · exact r2 (by simp)
    · intro k
      rw [h7]
      unfold HasItem DS.setItem
      simp only [dictGet_set]
      rw [dictGet]
      by_cases hk : e.1 = k
      · subst hk; simp
      · simp [hk, Ne.symm hk]
    · intro k m t
      rw [h8]
      unfold Has DS.setItem
      simp only [dictGet_set]
      rw [dictGet]
      by_cases hk : e.1 = k
      · subst hk
        simp only [hnone, if_true, hv]
        simp only [reduceCtorEq, false_and, exists_false, false_or, true_and, Option.some.injEq,
          JV.obj.injEq, or_false, exists_eq_left']
        rw [r3 hcs m]
        constructor
        · intro h
          cases hg : dictGet cs m with
          | none => rw [hg] at h; simp [dictGet] at h
          | some v =>
            rw [hg] at h
            refine ⟨cs, v, rfl, hg, ?_⟩
            cases hj : jsonTuple v with
            | error e => simp [hj, Except.toOption] at h
            | ok t' => simp [hj, Except.toOption] at h; rw [h]
        · rintro ⟨cs', v, rfl, hg, hj⟩
          rw [hg]
          simp [hj, Except.toOption]
      · simp [hk, Ne.symm hk]

/-! ## Writing and reading -/

theorem json_items (items : List (Name × List (Name × List ℤ))) :
    ∃ l, sortKeys (itemsToJson items) = .obj (sortEntries l) ∧ (l.map Prod.fst) = items.map Prod.fst ∧
      ∀ k, dictGet l k = (dictGet items k).map
        (fun cs => .obj (cs.map (fun c => (c.1, .arr (c.2.map .num))))) := by
  refine ⟨_, by unfold itemsToJson; rw [sortKeys], by simp [Function.comp_def], ?_⟩
  intro k
  exact dictGet_map (fun cs : List (Name × List ℤ) => JV.obj (α := Char) (cs.map (fun c => (c.1, .arr (c.2.map .num)))))
    items k

theorem sort_nums (v : List ℤ) : sortAll (v.map .num) = v.map .num := by
  rw [sortAll_eq, List.map_map]
  apply List.map_congr_left
  intro x _
  simp [sortKeys]

theorem readable_item (cs : List (Name × List ℤ)) (h : (cs.map Prod.fst).Nodup) :
    Readable (sortKeys (.obj (cs.map (fun c => (c.1, .arr (c.2.map .num)))))) := by
  rw [sortKeys]
  have hk := sortEntries_keys (cs.map (fun c => (c.1, JV.arr (α := Char) (c.2.map .num))))
  have hk' : ((cs.map (fun c => (c.1, JV.arr (α := Char) (c.2.map .num)))).map Prod.fst) = cs.map Prod.fst := by
    simp [Function.comp_def]
  rw [hk'] at hk
  refine ⟨_, rfl, hk.nodup_iff.2 h, ?_⟩
  intro e he
  have hnd := hk.nodup_iff.2 h
  have hg := dictGet_of_mem (k := e.1) (v := e.2) hnd he
  rw [sortEntries_get, dictGet_map (fun v : List ℤ => JV.arr (α := Char) (v.map .num)) cs] at hg
  cases hc : dictGet cs e.1 with
  | none => rw [hc] at hg; cases hg
  | some v =>
    rw [hc] at hg
    simp only [Option.map_some, Option.some.injEq] at hg
    rw [← hg, sortKeys]
    exact ⟨_, rfl⟩

theorem inputJson_linear {entries its : List (Name × JVal)}
    (hs : dictGet entries kSegType = some (.str kLinear)) (hi : dictGet entries kItems = some (.obj its)) :
    inputJson (some (.obj entries)) =
      readItems its { properties := entries.filter (fun e => decide (e.1 ≠ kItems)) } := by
  unfold inputJson
  simp [jsonContains, jsonIndex, hs, hi]

theorem dictGet_filter {κ V : Type} [DecidableEq κ] (l : List (κ × V)) (k0 k : κ) :
    dictGet (l.filter (fun e => decide (e.1 ≠ k0))) k = if k = k0 then none else dictGet l k := by
  induction l with
  | nil => simp [dictGet]
  | cons e es ih =>
    rw [List.filter_cons]
    by_cases h : e.1 = k0
    · simp only [h, ne_eq, not_true_eq_false, decide_false, Bool.false_eq_true, if_false]
      simp only [ne_eq] at ih
      rw [ih, dictGet, h]
      by_cases hk : k = k0
      · simp [hk]
      · simp [hk, Ne.symm hk]
    · simp only [ne_eq, h, not_false_eq_true, decide_true, if_true]
      simp only [ne_eq] at ih
      rw [dictGet, dictGet, ih]
      by_cases hk : e.1 = k
      · subst hk; simp [h]
      · simp [hk]

theorem lookAt_obj_congr {l l' : List (Name × JVal)}
    (h : ∀ k, (dictGet l k = none ∧ dictGet l' k = none) ∨
      ∃ v w, dictGet l k = some v ∧ dictGet l' k = some w ∧ SameJson v w) :
    SameJson (.obj l) (.obj l') := by
  intro p
  cases p with
  | nil => rfl
  | cons s p =>
    cases s with
    | idx i => rfl
    | key k =>
      rcases h k with ⟨h1, h2⟩ | ⟨v, w, h1, h2, h3⟩
      · simp [lookAt, h1, h2]
      · simp only [lookAt, h1, h2]; exact h3 p

theorem json_round_trip (d : DS (List ℤ)) (hd : IsDict2 d.items)
    (hp : (d.properties.map Prod.fst).Nodup) (hi : dictGet d.properties kItems = none)
    (hs : ∀ v, dictGet d.properties kSegType = some v → v = .str kLinear) :
    ∃ d', inputJson (some (outputJson d)) = .ok d' ∧ IsDict2 d'.items ∧
      (∀ l, HasItem d'.items l ↔ HasItem d.items l) ∧
      (∀ l m t, Has d'.items l m t ↔ ∃ v, Has d.items l m v ∧ t = v.map .num) ∧
      SameJson (.obj d'.properties) (.obj (dictSet d.properties kSegType (.str kLinear))) ∧
      (d'.properties.map Prod.fst).Nodup := by
  obtain ⟨l, e1, e2, e3⟩ := json_items d.items
  let L := dictUpdate (dictSet [(kSegType, .str kLinear)] kItems (itemsToJson d.items)) d.properties
  have hL : outputJson d = .obj (sortEntries L) := by
    unfold outputJson outputData
    rw [sortKeys]
  have hget : ∀ k, dictGet L k = match dictGet d.properties k with
      | some v => some v
      | none => if k = kItems then some (itemsToJson d.items)
        else if k = kSegType then some (.str kLinear) else none := by
    intro k
    show dictGet (dictUpdate _ _) k = _
    rw [dictUpdate_get _ _ hp]
    cases dictGet d.properties k with
    | some v => rfl
    | none =>
      simp only
      rw [dictGet_set]
      by_cases hk : k = kItems
      · simp [hk]
      · rw [if_neg hk, if_neg hk]
        by_cases hk' : k = kSegType
        · simp [hk', dictGet]
        · simp [hk', Ne.symm hk', dictGet]
  have hLk : (L.map Prod.fst).Nodup := by
    apply dictUpdate_nodup
    exact keys_set_nodup _ _ _ (by simp [dictKeys])
  have hgs : dictGet (sortEntries L) kSegType = some (.str kLinear) := by
    rw [sortEntries_get, hget]
    cases hc : dictGet d.properties kSegType with
    | some v => simp [hs v hc, sortKeys]
    | none =>
      have : kSegType ≠ kItems := by decide
      simp [this, sortKeys]
  have hgi : dictGet (sortEntries L) kItems = some (.obj (sortEntries l)) := by
    rw [sortEntries_get, hget, hi]
    simp [e1]
  have hknd : ((sortEntries l).map Prod.fst).Nodup := by
    rw [(sortEntries_keys l).nodup_iff, e2]
    exact hd.1
  have hread : ∀ e ∈ sortEntries l, Readable e.2 := by
    intro e he
    have hg := dictGet_of_mem (k := e.1) (v := e.2) hknd he
    rw [sortEntries_get, e3] at hg
    cases hc : dictGet d.items e.1 with
    | none => rw [hc] at hg; cases hg
    | some cs =>
      rw [hc] at hg
      simp only [Option.map_some, Option.some.injEq] at hg
      rw [← hg]
      exact readable_item cs (hd.2 _ (dictGet_mem hc))
  obtain ⟨d', h1, h2, h3, h4, h5, h6, h7, h8⟩ := readItems_get (sortEntries l) hread hknd
    { properties := (sortEntries L).filter (fun e => decide (e.1 ≠ kItems)) }
  refine ⟨d', ?_, ?_, ?_, ?_, ?_, ?_⟩
  · rw [hL, inputJson_linear hgs hgi, h1]
  · exact h6 ⟨by simp, by simp⟩
  · intro k
    rw [h7, sortEntries_get, e3]
    unfold HasItem
    cases dictGet d.items k with
    | none => simp [dictGet]
    | some cs => simp
  · intro k m t
    rw [h8]
    unfold Has
    rw [sortEntries_get, e3]
    cases hc : dictGet d.items k with
    | none => simp [dictGet]
    | some cs =>
      simp only [Option.map_some, sortKeys, Option.some.injEq, JV.obj.injEq, reduceCtorEq, false_and,
        or_false, exists_eq_left']
      constructor
      · rintro ⟨cs', v, rfl, hg, hj⟩
        rw [sortEntries_get, dictGet_map (fun v : List ℤ => JV.arr (α := Char) (v.map .num)) cs] at hg
        cases hm : dictGet cs m with
        | none => rw [hm] at hg; cases hg
        | some w =>
          rw [hm] at hg
          simp only [Option.map_some, Option.some.injEq, sortKeys, sort_nums] at hg
          rw [← hg] at hj
          exact ⟨w, rfl, (Except.ok.inj hj).symm⟩
      · rintro ⟨v, hm, rfl⟩
        refine ⟨_, .arr (v.map .num), rfl, ?_, rfl⟩
        rw [sortEntries_get, dictGet_map (fun v : List ℤ => JV.arr (α := Char) (v.map .num)) cs, hm]
        simp [sortKeys, sort_nums]
  · rw [h2]
    apply lookAt_obj_congr
    intro k
    simp only [dictGet_filter, dictGet_set, sortEntries_get, hget]
    by_cases hk : k = kItems
    · subst hk
      have : kItems ≠ kSegType := by decide
      simp [this, hi]
    · rw [if_neg hk]
      by_cases hk' : k = kSegType
      · subst hk'
        refine Or.inr ?_
        cases hc : dictGet d.properties kSegType with
        | some v => simp [hs v hc, sortKeys, SameJson]
        | none => simp [hk, sortKeys, SameJson]
      · cases hc : dictGet d.properties k with
        | some v =>
          refine Or.inr ⟨_, v, rfl, by simp [hk'], fun p => lookAt_sortKeys p v⟩
        | none => simp [hk, hk']
  · rw [h2]
    exact (List.Nodup.sublist (List.Sublist.map Prod.fst List.filter_sublist)
      ((sortEntries_keys L).nodup_iff.2 hLk))

end SegEval
