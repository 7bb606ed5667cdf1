import Verif.Lemmas.DataValue

namespace SegEval

open Spec

/-! ## Dicts under a change of values -/

theorem dictGet_map {κ α β : Type _} [DecidableEq κ] (f : α → β) (l : List (κ × α)) (k : κ) :
    dictGet (l.map (fun e => (e.1, f e.2))) k = (dictGet l k).map f := by
  induction l with
  | nil => rfl
  | cons e es ih =>
    obtain ⟨k', v⟩ := e
    by_cases h : k' = k
    · simp [dictGet, h]
    · simp [dictGet, h, ih]

theorem dictSet_map {κ α β : Type _} [DecidableEq κ] (f : α → β) (l : List (κ × α)) (k : κ) (v : α) :
    (dictSet l k v).map (fun e => (e.1, f e.2)) = dictSet (l.map (fun e => (e.1, f e.2))) k (f v) := by
  induction l with
  | nil => rfl
  | cons e es ih =>
    obtain ⟨k', v'⟩ := e
    by_cases h : k' = k
    · simp [dictSet, h]
    · simp [dictSet, h, ih]

theorem map_update {β : Type _} (l : List (Name × ℕ)) (item : Name) (r : ℕ) (F F' : ℕ → β)
    (hg : dictGet l item = some r) (hn : (l.map Prod.snd).Nodup) (hF : ∀ x, x ≠ r → F' x = F x) :
    l.map (fun it => (it.1, F' it.2)) = dictSet (l.map (fun it => (it.1, F it.2))) item (F' r) := by
  induction l with
  | nil => cases hg
  | cons e es ih =>
    obtain ⟨k', r'⟩ := e
    rw [List.map_cons, List.nodup_cons] at hn
    by_cases h : k' = item
    · simp only [dictGet, h, if_true, Option.some.injEq] at hg
      subst hg
      simp only [List.map_cons, dictSet, h, if_true]
      congr 1
      apply List.map_congr_left
      intro it hit
      have : it.2 ≠ r' := fun he => hn.1 (List.mem_map.2 ⟨it, hit, he⟩)
      rw [hF _ this]
    · simp only [dictGet, h, if_false] at hg
      simp only [List.map_cons, dictSet, h, if_false, ih hg hn.2]
      have : r' ≠ r := fun he => hn.1 (by
        rw [he]; exact List.mem_map.2 ⟨_, dictGet_mem hg, rfl⟩)
      rw [hF _ this]

/-! ## One item -/

/-- What the codings of a dict object look like. -/
def Heap.codingsAt (h : Heap) (r : ℕ) : List (Name × List ℤ) :=
  (h.dicts r).map (fun c => (c.1, h.segOf c.2))

theorem view_items (h : Heap) (d : ℕ) :
    (h.view d).items = (h.ds d).items.map (fun it => (it.1, h.codingsAt it.2)) := rfl

theorem view_congr {h h' : Heap} {x : ℕ} (h1 : h'.ds x = h.ds x)
    (h2 : ∀ it ∈ (h.ds x).items, h'.dicts it.2 = h.dicts it.2)
    (h3 : ∀ k, HoldsList h x k → h'.lists k = h.lists k) : h'.view x = h.view x := by
  have : (h'.ds x).items.map (fun it => (it.1, (h'.dicts it.2).map (fun c => (c.1, h'.segOf c.2)))) =
      (h.ds x).items.map (fun it => (it.1, (h.dicts it.2).map (fun c => (c.1, h.segOf c.2)))) := by
    rw [h1]
    apply List.map_congr_left
    intro it hit
    rw [h2 it hit]
    congr 1
    apply List.map_congr_left
    intro c hc
    congr 1
    cases hcv : c.2 with
    | tuple l => rfl
    | list k => exact h3 k ⟨it, hit, c, hc, hcv⟩
  unfold Heap.view
  rw [this, h1]

theorem segOf_congr {h h' : Heap} (hl : h'.lists = h.lists) (v : SegRef) : h'.segOf v = h.segOf v := by
  cases v with
  | tuple l => rfl
  | list k => simp only [Heap.segOf, hl]

theorem setCoding_some {h : Heap} {d : ℕ} {item : Name} {r : ℕ}
    (hg : dictGet (h.ds d).items item = some r) (coder : Name) (v : SegRef) :
    h.setCoding d item coder v =
      { h with dicts := Function.update h.dicts r (dictSet (h.dicts r) coder v) } := by
  simp only [Heap.setCoding, hg]

theorem view_setCoding {h : Heap} {d : ℕ} {item : Name} {r : ℕ}
    (hg : dictGet (h.ds d).items item = some r) (hn : NoAlias h d) (coder : Name) (v : SegRef) :
    (h.setCoding d item coder v).view d = (h.view d).setCoding item coder (h.segOf v) := by
  rw [setCoding_some hg, setCoding_eq]
  unfold Heap.view putCoding
  simp only [DS.mk.injEq, and_true]
  have hd := dictGet_map h.codingsAt (h.ds d).items item
  rw [hg] at hd
  have := map_update (h.ds d).items item r h.codingsAt
    (fun x => (Function.update h.dicts r (dictSet (h.dicts r) coder v) x).map
      (fun c => (c.1, h.segOf c.2))) hg hn (by
        intro x hx
        rw [Function.update_of_ne hx]; rfl)
  rw [Function.update_self, dictSet_map] at this
  refine Eq.trans this ?_
  change dictSet _ item (dictSet (h.codingsAt r) coder (h.segOf v)) =
    dictSet _ item (dictSet ((dictGet ((h.ds d).items.map (fun e => (e.1, h.codingsAt e.2))) item).getD [])
      coder (h.segOf v))
  rw [hd]
  rfl

/-- Nothing changed but the object of `d` (other than its items) and the dict object `r`. -/
structure OneDict (h h' : Heap) (d r : ℕ) : Prop where
  lists : h'.lists = h.lists
  nextDs : h'.nextDs = h.nextDs
  nextDict : h'.nextDict = h.nextDict
  nextList : h'.nextList = h.nextList
  others : ∀ x, x ≠ d → h'.ds x = h.ds x
  items : (h'.ds d).items = (h.ds d).items
  dicts : ∀ x, x ≠ r → h'.dicts x = h.dicts x

theorem OneDict.refl (h : Heap) (d r : ℕ) : OneDict h h d r :=
  ⟨rfl, rfl, rfl, rfl, fun _ _ => rfl, rfl, fun _ _ => rfl⟩

theorem OneDict.trans {h1 h2 h3 : Heap} {d r : ℕ} (a : OneDict h1 h2 d r) (b : OneDict h2 h3 d r) :
    OneDict h1 h3 d r where
  lists := b.lists.trans a.lists
  nextDs := b.nextDs.trans a.nextDs
  nextDict := b.nextDict.trans a.nextDict
  nextList := b.nextList.trans a.nextList
  others x hx := (b.others x hx).trans (a.others x hx)
  items := b.items.trans a.items
  dicts x hx := (b.dicts x hx).trans (a.dicts x hx)

theorem addCoder_one (h : Heap) (d : ℕ) (coder : Name) (r : ℕ) : OneDict h (h.addCoder d coder) d r where
  lists := rfl
  nextDs := rfl
  nextDict := rfl
  nextList := rfl
  others x hx := Function.update_of_ne hx _ _
  items := by simp only [Heap.addCoder, Function.update_self]
  dicts _ _ := rfl

theorem setCoding_one {h : Heap} {d : ℕ} {item : Name} {r : ℕ}
    (hg : dictGet (h.ds d).items item = some r) (coder : Name) (v : SegRef) :
    OneDict h (h.setCoding d item coder v) d r := by
  rw [setCoding_some hg]
  exact ⟨rfl, rfl, rfl, rfl, fun _ _ => rfl, rfl, fun x hx => Function.update_of_ne hx _ _⟩

theorem view_addCoder (h : Heap) (d : ℕ) (coder : Name) :
    (h.addCoder d coder).view d = { h.view d with coders := insert coder (h.view d).coders } := by
  unfold Heap.view
  simp only [Heap.addCoder, Function.update_self, DS.mk.injEq, and_true]
  rfl

theorem addCodings_step (h : Heap) (d : ℕ) (item : Name) {r : ℕ}
    (hg : dictGet (h.ds d).items item = some r) (coder : Name) (v : SegRef)
    (rest : List (Name × SegRef)) :
    h.addCodings d item ((coder, v) :: rest) =
      if (dictGet (h.dicts r) coder).isSome = true then (h.addCoder d coder, some .dataIOError)
      else ((h.addCoder d coder).setCoding d item coder v).addCodings d item rest := by
  have h1 : dictGet ((h.addCoder d coder).ds d).items item = some r := by
    rw [(addCoder_one h d coder r).items]; exact hg
  rw [Heap.addCodings]
  simp only [h1]
  rfl

theorem addCodings_one (h : Heap) (d : ℕ) (item : Name) {r : ℕ}
    (hg : dictGet (h.ds d).items item = some r) (l : List (Name × SegRef)) :
    OneDict h (h.addCodings d item l).1 d r ∧
    (∀ c ∈ (h.addCodings d item l).1.dicts r, c ∈ h.dicts r ∨ c ∈ l) ∧
    (((h.dicts r).map Prod.fst).Nodup → (((h.addCodings d item l).1.dicts r).map Prod.fst).Nodup) := by
  induction l generalizing h with
  | nil => exact ⟨OneDict.refl h d r, fun c hc => Or.inl hc, fun h => h⟩
  | cons e rest ih =>
    obtain ⟨coder, v⟩ := e
    rw [addCodings_step h d item hg]
    have a1 := addCoder_one h d coder r
    by_cases hp : (dictGet (h.dicts r) coder).isSome = true
    · rw [if_pos hp]
      exact ⟨a1, fun c hc => Or.inl hc, fun h => h⟩
    · rw [if_neg hp]
      have g1 : dictGet ((h.addCoder d coder).ds d).items item = some r := by rw [a1.items]; exact hg
      have a2 := setCoding_one g1 coder v
      have g2 : dictGet (((h.addCoder d coder).setCoding d item coder v).ds d).items item = some r := by
        rw [a2.items]; exact g1
      obtain ⟨b1, b2, b3⟩ := ih _ g2
      have e : ((h.addCoder d coder).setCoding d item coder v).dicts r =
          h.dicts r ++ [(coder, v)] := by
        rw [setCoding_some g1]
        simp only [Function.update_self]
        rw [← dictSet_new (by simpa using hp) v]
        rfl
      refine ⟨(a1.trans a2).trans b1, ?_, ?_⟩
      · intro c hc
        rcases b2 c hc with h' | h'
        · rw [e, List.mem_append, List.mem_singleton] at h'
          rcases h' with h' | h'
          · exact Or.inl h'
          · right; rw [h']; simp
        · right; simp [h']
      · intro hnd
        apply b3
        rw [e, ← dictSet_new (by simpa using hp) v]
        exact dictKeys_dictSet_nodup hnd

theorem addCodings_sim (h : Heap) (d : ℕ) (item : Name) {r : ℕ}
    (hg : dictGet (h.ds d).items item = some r) (hn : NoAlias h d) (l : List (Name × SegRef)) :
    ((h.addCodings d item l).1.view d, (h.addCodings d item l).2) =
      DS.addCodings (h.view d) item (l.map (fun c => (c.1, h.segOf c.2))) := by
  induction l generalizing h with
  | nil => rfl
  | cons e rest ih =>
    obtain ⟨coder, v⟩ := e
    rw [addCodings_step h d item hg, List.map_cons]
    unfold DS.addCodings
    simp only
    have hlook : dictGet ((dictGet (h.view d).items item).getD []) coder =
        (dictGet (h.dicts r) coder).map h.segOf := by
      rw [view_items, dictGet_map, hg]
      simp only [Option.map_some, Option.getD_some, Heap.codingsAt]
      exact dictGet_map h.segOf (h.dicts r) coder
    rw [hlook]
    have a1 := addCoder_one h d coder r
    cases hp : dictGet (h.dicts r) coder with
    | some w =>
      simp only [Option.isSome_some, if_true, Option.map_some]
      rw [view_addCoder]
    | none =>
      simp only [Option.isSome_none, Bool.false_eq_true, if_false, Option.map_none]
      have g1 : dictGet ((h.addCoder d coder).ds d).items item = some r := by rw [a1.items]; exact hg
      have n1 : NoAlias (h.addCoder d coder) d := by unfold NoAlias; rw [a1.items]; exact hn
      have a2 := setCoding_one g1 coder v
      have g2 : dictGet (((h.addCoder d coder).setCoding d item coder v).ds d).items item = some r := by
        rw [a2.items]; exact g1
      have n2 : NoAlias ((h.addCoder d coder).setCoding d item coder v) d := by
        unfold NoAlias; rw [a2.items]; exact n1
      rw [ih _ g2 n2, view_setCoding g1 n1, view_addCoder]
      have e1 : ((h.addCoder d coder).setCoding d item coder v).segOf = h.segOf :=
        funext (fun x => segOf_congr (a1.trans a2).lists x)
      have e2 : (h.addCoder d coder).segOf v = h.segOf v := segOf_congr a1.lists v
      rw [e1, e2]

/-! ## All items -/

/-- Nothing changed but dataset `d`, its own dict objects, and new dict objects. -/
structure OneSet (h h' : Heap) (d : ℕ) : Prop where
  lists : h'.lists = h.lists
  nextDs : h'.nextDs = h.nextDs
  nextDict : h.nextDict ≤ h'.nextDict
  nextList : h'.nextList = h.nextList
  others : ∀ x, x ≠ d → h'.ds x = h.ds x
  refs : ∀ it ∈ (h'.ds d).items, (∃ it0 ∈ (h.ds d).items, it0.2 = it.2) ∨
    (h.nextDict ≤ it.2 ∧ it.2 < h'.nextDict)
  dicts : ∀ r, r < h.nextDict → (∀ it ∈ (h.ds d).items, it.2 ≠ r) → h'.dicts r = h.dicts r

theorem OneSet.refl (h : Heap) (d : ℕ) : OneSet h h d :=
  ⟨rfl, rfl, le_refl _, rfl, fun _ _ => rfl, fun it hit => Or.inl ⟨it, hit, rfl⟩, fun _ _ _ => rfl⟩

theorem OneSet.trans {h1 h2 h3 : Heap} {d : ℕ} (a : OneSet h1 h2 d) (b : OneSet h2 h3 d) :
    OneSet h1 h3 d where
  lists := b.lists.trans a.lists
  nextDs := b.nextDs.trans a.nextDs
  nextDict := a.nextDict.trans b.nextDict
  nextList := b.nextList.trans a.nextList
  others x hx := (b.others x hx).trans (a.others x hx)
  refs it hit := by
    rcases b.refs it hit with ⟨it0, h0, e0⟩ | ⟨h0, h1⟩
    · rcases a.refs it0 h0 with ⟨it1, g1, e1⟩ | ⟨g1, g2⟩
      · exact Or.inl ⟨it1, g1, e1.trans e0⟩
      · right; rw [← e0]; exact ⟨g1, lt_of_lt_of_le g2 b.nextDict⟩
    · exact Or.inr ⟨a.nextDict.trans h0, h1⟩
  dicts r hr hn := by
    rw [b.dicts r (lt_of_lt_of_le hr a.nextDict), a.dicts r hr hn]
    intro it hit he
    rcases a.refs it hit with ⟨it0, h0, e0⟩ | ⟨h0, _⟩
    · exact hn it0 h0 (e0.trans he)
    · rw [he] at h0; omega

theorem OneDict.oneSet {h h' : Heap} {d r : ℕ} (a : OneDict h h' d r)
    (hr : ∃ it ∈ (h.ds d).items, it.2 = r) : OneSet h h' d where
  lists := a.lists
  nextDs := a.nextDs
  nextDict := a.nextDict.ge
  nextList := a.nextList
  others := a.others
  refs it hit := by rw [a.items] at hit; exact Or.inl ⟨it, hit, rfl⟩
  dicts x _ hn := by
    obtain ⟨it, hit, e⟩ := hr
    exact a.dicts x (fun hx => hn it hit (e.trans hx.symm))

theorem mem_dictSet {κ α : Type _} [DecidableEq κ] {d : List (κ × α)} {k : κ} {v : α} {e : κ × α}
    (h : e ∈ dictSet d k v) : e ∈ d ∨ e.2 = v := by
  cases hg : dictGet d k with
  | none =>
    rw [dictSet_new hg, List.mem_append, List.mem_singleton] at h
    rcases h with h | h
    · exact Or.inl h
    · right; rw [h]
  | some v0 =>
    obtain ⟨pre, post, e1, e2⟩ := dictSet_split hg
    rw [e2 v] at h
    rw [e1]
    simp only [List.mem_append, List.mem_cons] at h ⊢
    rcases h with h | h | h
    · exact Or.inl (Or.inl h)
    · right; rw [h]
    · exact Or.inl (Or.inr (Or.inr h))

theorem freshItem_set (h : Heap) (d : ℕ) (item : Name) : OneSet h (h.freshItem d item) d where
  lists := rfl
  nextDs := rfl
  nextDict := Nat.le_succ _
  nextList := rfl
  others x hx := Function.update_of_ne hx _ _
  refs it hit := by
    simp only [Heap.freshItem, Function.update_self] at hit ⊢
    rcases mem_dictSet hit with h' | h'
    · exact Or.inl ⟨it, h', rfl⟩
    · right; omega
  dicts r hr _ := by
    simp only [Heap.freshItem]
    exact Function.update_of_ne (by omega) _ _

theorem freshItem_valid {h : Heap} (hv : Valid h) (d : ℕ) (item : Name) : Valid (h.freshItem d item) where
  refs x it hit := by
    simp only [Heap.freshItem] at hit ⊢
    by_cases hx : x = d
    · subst hx
      rw [Function.update_self] at hit
      rcases mem_dictSet hit with h' | h'
      · exact Nat.lt_succ_of_lt (hv.refs x it h')
      · omega
    · rw [Function.update_of_ne hx] at hit
      exact Nat.lt_succ_of_lt (hv.refs x it hit)
  keys x := by
    simp only [Heap.freshItem]
    by_cases hx : x = d
    · subst hx
      rw [Function.update_self]
      exact dictKeys_dictSet_nodup (hv.keys x)
    · rw [Function.update_of_ne hx]; exact hv.keys x
  inner r := by
    simp only [Heap.freshItem]
    by_cases hr : r = h.nextDict
    · subst hr; rw [Function.update_self]; simp
    · rw [Function.update_of_ne hr]; exact hv.inner r
  lists r c hc k hk := by
    simp only [Heap.freshItem] at hc ⊢
    by_cases hr : r = h.nextDict
    · subst hr; rw [Function.update_self] at hc; cases hc
    · rw [Function.update_of_ne hr] at hc; exact hv.lists r c hc k hk

theorem freshItem_alias {h : Heap} (hv : Valid h) {d : ℕ} {item : Name} (hn : NoAlias h d)
    (hg : dictGet (h.ds d).items item = none) : NoAlias (h.freshItem d item) d := by
  simp only [NoAlias, Heap.freshItem, Function.update_self]
  rw [dictSet_new hg, List.map_append, List.nodup_append]
  refine ⟨hn, by simp, ?_⟩
  intro a ha b hb
  obtain ⟨it, hit, rfl⟩ := List.mem_map.1 ha
  simp only [List.map_cons, List.map_nil, List.mem_singleton] at hb
  have := hv.refs d it hit
  omega

theorem ensureItem_set (h : Heap) (d : ℕ) (item : Name) : OneSet h (h.ensureItem d item) d := by
  unfold Heap.ensureItem
  cases dictGet (h.ds d).items item with
  | some r => exact OneSet.refl h d
  | none => exact freshItem_set h d item

theorem ensureItem_valid {h : Heap} (hv : Valid h) (d : ℕ) (item : Name) :
    Valid (h.ensureItem d item) := by
  unfold Heap.ensureItem
  cases dictGet (h.ds d).items item with
  | some r => exact hv
  | none => exact freshItem_valid hv d item

theorem ensureItem_alias {h : Heap} (hv : Valid h) {d : ℕ} {item : Name} (hn : NoAlias h d) :
    NoAlias (h.ensureItem d item) d := by
  unfold Heap.ensureItem
  cases hg : dictGet (h.ds d).items item with
  | some r => exact hn
  | none => exact freshItem_alias hv hn hg

theorem ensureItem_get (h : Heap) (d : ℕ) (item : Name) :
    ∃ r, dictGet ((h.ensureItem d item).ds d).items item = some r := by
  unfold Heap.ensureItem
  cases hg : dictGet (h.ds d).items item with
  | some r => exact ⟨r, hg⟩
  | none =>
    refine ⟨h.nextDict, ?_⟩
    simp only [Heap.freshItem, Function.update_self]
    rw [dictGet_set, if_pos rfl]

theorem view_ensureItem {h : Heap} (hv : Valid h) (d : ℕ) (item : Name) :
    (h.ensureItem d item).view d = (h.view d).ensureItem item := by
  unfold Heap.ensureItem DS.ensureItem
  rw [view_items, dictGet_map]
  cases hg : dictGet (h.ds d).items item with
  | some r => rfl
  | none =>
    simp only [Option.map_none, DS.setItem]
    unfold Heap.view
    simp only [Heap.freshItem, Function.update_self, DS.mk.injEq, and_true]
    rw [dictSet_new hg, dictSet_new (by
      have := dictGet_map h.codingsAt (h.ds d).items item
      rw [hg] at this
      exact this), List.map_append]
    congr 1
    · apply List.map_congr_left
      intro it hit
      have := hv.refs d it hit
      rw [Function.update_of_ne (by omega)]
      rfl
    · simp

theorem addCodings_valid {h : Heap} (hv : Valid h) (d : ℕ) (item : Name) {r : ℕ}
    (hg : dictGet (h.ds d).items item = some r) (l : List (Name × SegRef))
    (hl : ∀ c ∈ l, ∀ k, c.2 = .list k → k < h.nextList) : Valid (h.addCodings d item l).1 := by
  obtain ⟨a, b, c⟩ := addCodings_one h d item hg l
  constructor
  · intro x it hit
    rw [a.nextDict]
    by_cases hx : x = d
    · subst hx; rw [a.items] at hit; exact hv.refs x it hit
    · rw [a.others x hx] at hit; exact hv.refs x it hit
  · intro x
    by_cases hx : x = d
    · subst hx; rw [a.items]; exact hv.keys x
    · rw [a.others x hx]; exact hv.keys x
  · intro x
    by_cases hx : x = r
    · subst hx; exact c (hv.inner x)
    · rw [a.dicts x hx]; exact hv.inner x
  · intro x e he k hk
    rw [a.nextList]
    by_cases hx : x = r
    · subst hx
      rcases b e he with h' | h'
      · exact hv.lists x e h' k hk
      · exact hl e h' k hk
    · rw [a.dicts x hx] at he; exact hv.lists x e he k hk

/-- The result of one round of the loop over items. -/
def Heap.round (h : Heap) (prepend : Option (List Name)) (d : ℕ) (x : Name × ℕ) : Heap × Option PyErr :=
  (h.ensureItem d (DS.prefixed prepend x.1)).addCodings d (DS.prefixed prepend x.1)
    ((h.ensureItem d (DS.prefixed prepend x.1)).dicts x.2)

theorem iaddItems_cons (prepend : Option (List Name)) (d : ℕ) (x : Name × ℕ) (rest : List (Name × ℕ))
    (h : Heap) :
    Heap.iaddItems prepend d (x :: rest) h =
      match h.round prepend d x with
      | (h2, some e) => (h2, some e)
      | (h2, none) => Heap.iaddItems prepend d rest h2 := rfl

theorem round_set (h : Heap) (prepend : Option (List Name)) (d : ℕ) (x : Name × ℕ) :
    OneSet h (h.round prepend d x).1 d := by
  obtain ⟨r, hr⟩ := ensureItem_get h d (DS.prefixed prepend x.1)
  exact (ensureItem_set h d _).trans ((addCodings_one _ d _ hr _).1.oneSet ⟨_, dictGet_mem hr, rfl⟩)

theorem round_valid {h : Heap} (hv : Valid h) (prepend : Option (List Name)) (d : ℕ) (x : Name × ℕ) :
    Valid (h.round prepend d x).1 := by
  obtain ⟨r, hr⟩ := ensureItem_get h d (DS.prefixed prepend x.1)
  have hv' := ensureItem_valid hv d (DS.prefixed prepend x.1)
  exact addCodings_valid hv' d _ hr _ (fun c hc k hk => hv'.lists _ c hc k hk)

theorem round_alias {h : Heap} (hv : Valid h) (prepend : Option (List Name)) {d : ℕ} (x : Name × ℕ)
    (hn : NoAlias h d) : NoAlias (h.round prepend d x).1 d := by
  obtain ⟨r, hr⟩ := ensureItem_get h d (DS.prefixed prepend x.1)
  have := (addCodings_one _ d _ hr ((h.ensureItem d (DS.prefixed prepend x.1)).dicts x.2)).1.items
  unfold NoAlias Heap.round
  rw [this]
  exact ensureItem_alias hv hn

theorem iaddItems_set (prepend : Option (List Name)) (d : ℕ) (l : List (Name × ℕ)) (h : Heap) :
    OneSet h (Heap.iaddItems prepend d l h).1 d ∧
      (Valid h → Valid (Heap.iaddItems prepend d l h).1) := by
  induction l generalizing h with
  | nil => exact ⟨OneSet.refl h d, fun h => h⟩
  | cons x rest ih =>
    rw [iaddItems_cons]
    have h1 := round_set h prepend d x
    have h2 := fun hv => round_valid (h := h) hv prepend d x
    cases hr : h.round prepend d x with
    | mk h' oe =>
      rw [hr] at h1 h2
      cases oe with
      | some e => exact ⟨h1, h2⟩
      | none => exact ⟨h1.trans (ih h').1, fun hv => (ih h').2 (h2 hv)⟩

theorem iaddItems_sim (prepend : Option (List Name)) (d : ℕ) (l : List (Name × ℕ)) (h : Heap)
    (hv : Valid h) (hn : NoAlias h d) (hl : ∀ x ∈ l, x.2 < h.nextDict)
    (ha : ∀ x ∈ l, ∀ it ∈ (h.ds d).items, it.2 ≠ x.2) :
    ((Heap.iaddItems prepend d l h).1.view d, (Heap.iaddItems prepend d l h).2) =
      DS.iadd prepend (h.view d) (l.map (fun x => (x.1, h.codingsAt x.2))) := by
  induction l generalizing h with
  | nil => rfl
  | cons x rest ih =>
    rw [iaddItems_cons, List.map_cons]
    unfold DS.iadd
    simp only
    have h1 := round_set h prepend d x
    have v1 := round_valid hv prepend d x
    have n1 := round_alias hv prepend x hn
    obtain ⟨r, hr⟩ := ensureItem_get h d (DS.prefixed prepend x.1)
    have es := ensureItem_set h d (DS.prefixed prepend x.1)
    have en := ensureItem_alias (item := DS.prefixed prepend x.1) hv hn
    have s1 : ((h.round prepend d x).1.view d, (h.round prepend d x).2) =
        DS.addCodings ((h.view d).ensureItem (DS.prefixed prepend x.1)) (DS.prefixed prepend x.1)
          (h.codingsAt x.2) := by
      have := addCodings_sim _ d _ hr en ((h.ensureItem d (DS.prefixed prepend x.1)).dicts x.2)
      rw [view_ensureItem hv] at this
      refine Eq.trans this ?_
      congr 1
      rw [es.dicts x.2 (hl x (by simp)) (ha x (by simp))]
      unfold Heap.codingsAt
      apply List.map_congr_left
      intro c _
      rw [segOf_congr es.lists]
    cases hrr : h.round prepend d x with
    | mk h' oe =>
      rw [hrr] at h1 v1 n1 s1
      rw [← s1]
      cases oe with
      | some e => rfl
      | none =>
        simp only at h1 v1 n1 ⊢
        have a1 : ∀ y ∈ rest, ∀ it ∈ (h'.ds d).items, it.2 ≠ y.2 := by
          intro y hy it hit he
          rcases h1.refs it hit with ⟨it0, g0, e0⟩ | ⟨g0, _⟩
          · exact ha y (by simp [hy]) it0 g0 (e0.trans he)
          · have := hl y (by simp [hy]); omega
        rw [ih h' v1 n1 (fun y hy => lt_of_lt_of_le (hl y (by simp [hy])) h1.nextDict) a1]
        congr 1
        apply List.map_congr_left
        intro y hy
        congr 1
        unfold Heap.codingsAt
        rw [h1.dicts y.2 (hl y (by simp [hy])) (ha y (by simp [hy]))]
        apply List.map_congr_left
        intro c _
        rw [segOf_congr h1.lists]

/-- Codings come from the dataset or what is added to it. -/
theorem iaddItems_refs (P : SegRef → Prop) (prepend : Option (List Name)) (d : ℕ)
    (l : List (Name × ℕ)) (h : Heap) (hl : ∀ x ∈ l, x.2 < h.nextDict)
    (h1 : ∀ it ∈ (h.ds d).items, ∀ c ∈ h.dicts it.2, P c.2)
    (h2 : ∀ x ∈ l, ∀ c ∈ h.dicts x.2, P c.2) :
    ∀ it ∈ ((Heap.iaddItems prepend d l h).1.ds d).items,
      ∀ c ∈ (Heap.iaddItems prepend d l h).1.dicts it.2, P c.2 := by
  induction l generalizing h with
  | nil => exact h1
  | cons x rest ih =>
    rw [iaddItems_cons]
    have s1 := round_set h prepend d x
    obtain ⟨r, hr⟩ := ensureItem_get h d (DS.prefixed prepend x.1)
    have es := ensureItem_set h d (DS.prefixed prepend x.1)
    have e1 : ∀ it ∈ ((h.ensureItem d (DS.prefixed prepend x.1)).ds d).items,
        ∀ c ∈ (h.ensureItem d (DS.prefixed prepend x.1)).dicts it.2, P c.2 := by
      unfold Heap.ensureItem
      cases hg : dictGet (h.ds d).items (DS.prefixed prepend x.1) with
      | some r => exact h1
      | none =>
        intro it hit c hc
        simp only [Heap.freshItem, Function.update_self] at hit hc
        by_cases hi : it.2 = h.nextDict
        · rw [hi, Function.update_self] at hc; cases hc
        · rw [Function.update_of_ne hi] at hc
          rcases mem_dictSet hit with h' | h'
          · exact h1 it h' c hc
          · exact absurd h' hi
    have e2 : ∀ y ∈ x :: rest, ∀ c ∈ (h.ensureItem d (DS.prefixed prepend x.1)).dicts y.2, P c.2 := by
      unfold Heap.ensureItem
      cases hg : dictGet (h.ds d).items (DS.prefixed prepend x.1) with
      | some r => exact h2
      | none =>
        intro y hy c hc
        have := hl y hy
        simp only [Heap.freshItem] at hc
        rw [Function.update_of_ne (by omega)] at hc
        exact h2 y hy c hc
    obtain ⟨a1, a2, _⟩ := addCodings_one _ d _ hr ((h.ensureItem d (DS.prefixed prepend x.1)).dicts x.2)
    have key : ∀ y, (∀ c ∈ (h.ensureItem d (DS.prefixed prepend x.1)).dicts y, P c.2) →
        ∀ c ∈ (h.round prepend d x).1.dicts y, P c.2 := by
      intro y hy c hc
      by_cases hyr : y = r
      · subst hyr
        rcases a2 c hc with h' | h'
        · exact hy c h'
        · exact e2 x (by simp) c h'
      · unfold Heap.round at hc
        rw [a1.dicts y hyr] at hc
        exact hy c hc
    have f1 : ∀ it ∈ ((h.round prepend d x).1.ds d).items,
        ∀ c ∈ (h.round prepend d x).1.dicts it.2, P c.2 := by
      intro it hit
      have hit' : it ∈ ((h.ensureItem d (DS.prefixed prepend x.1)).ds d).items := by
        unfold Heap.round at hit
        rw [a1.items] at hit
        exact hit
      exact key it.2 (e1 it hit')
    cases hrr : h.round prepend d x with
    | mk h' oe =>
      rw [hrr] at s1 f1
      cases oe with
      | some e => exact f1
      | none =>
        simp only at s1 f1 ⊢
        refine ih h' (fun y hy => lt_of_lt_of_le (hl y (by simp [hy])) s1.nextDict) f1 ?_
        intro y hy
        have := key y.2 (e2 y (by simp [hy]))
        rw [hrr] at this
        exact this

end SegEval
