import Verif.Lemmas.DataHistory
import Verif.Props.Data

/-!
# C80: what a new dataset holds, and that its attributes stay
-/

namespace SegEval.Props

open SegEval Spec

/-- The coder set collected from inner dict objects. -/
theorem mem_collected (F : ℕ → List (Name × SegRef)) (l : List (Name × ℕ)) (s : Finset Name) (c : Name) :
    c ∈ l.foldl (fun acc it => (F it.2).foldl (fun acc c => insert c.1 acc) acc) s ↔
      c ∈ s ∨ ∃ it ∈ l, ∃ e ∈ F it.2, e.1 = c := by
  have inner : ∀ (l : List (Name × SegRef)) (s : Finset Name) (c : Name),
      c ∈ l.foldl (fun acc c => insert c.1 acc) s ↔ c ∈ s ∨ ∃ e ∈ l, e.1 = c := by
    intro l
    induction l with
    | nil => simp
    | cons e es ih =>
      intro s c
      rw [List.foldl_cons, ih]
      simp only [Finset.mem_insert, List.mem_cons, exists_eq_or_imp, eq_comm (a := c)]
      tauto
  induction l generalizing s with
  | nil => simp
  | cons e es ih =>
    rw [List.foldl_cons]
    refine (ih _).trans ?_
    rw [inner]
    simp only [List.mem_cons, exists_eq_or_imp]
    exact or_assoc

/-- The entry of a dict without repeated keys. -/
theorem dictGet_some_iff {κ α : Type _} [DecidableEq κ] {l : List (κ × α)} (h : (l.map Prod.fst).Nodup)
    (k : κ) (v : α) : dictGet l k = some v ↔ (k, v) ∈ l := by
  induction l with
  | nil => simp [dictGet]
  | cons e es ih =>
    obtain ⟨k', v'⟩ := e
    rw [List.map_cons, List.nodup_cons] at h
    by_cases hk : k' = k
    · subst hk
      have : ∀ w, (k', w) ∉ es := fun w hw => h.1 (List.mem_map.2 ⟨_, hw, rfl⟩)
      simp [dictGet, this, eq_comm]
    · simp [dictGet, hk, Ne.symm hk, ih h.2]

/-- C80: `Dataset(source, …)` for a dict of existing inner dicts holds exactly the codings of those
dicts and their coders, the properties and the format given, and the boundary types given or else
{1}; no other dataset changes. -/
theorem C80_from_dicts (h : Heap) (source : List (Name × ℕ)) (properties : List (Name × JVal))
    (types : Option (Finset ℤ)) (fmt : BoundaryFormat) (hs : (source.map Prod.fst).Nodup)
    (hi : ∀ r, ((h.dicts r).map Prod.fst).Nodup) (hp : (properties.map Prod.fst).Nodup) {h' : Heap}
    {d : ℕ} (hd : h.newDataset source properties types fmt = (h', d)) :
    (∀ x < h.nextDs, x ≠ d ∧ h'.view x = h.view x) ∧
    (∀ l, HasItem (h'.view d).items l ↔ ∃ r, (l, r) ∈ source) ∧
    (∀ l m v, Has (h'.view d).items l m v ↔ ∃ r s, (l, r) ∈ source ∧ (m, s) ∈ h.dicts r ∧ h.segOf s = v) ∧
    CodersAre (h'.view d).items (h'.view d).coders ∧
    (∀ k v, dictGet (h'.view d).properties k = some v ↔ (k, v) ∈ properties) ∧
    (h'.view d).boundaryFormat = fmt ∧
    (∀ s, types = some s → (h'.view d).boundaryTypes = s) ∧
    (types = none → (h'.view d).boundaryTypes = {1}) := by
  have hd1 : (h.newDataset source properties types fmt).1 = h' := by rw [hd]
  have hd2 : h.nextDs = d := congrArg Prod.snd hd
  subst hd1 hd2
  have hu := dictUpdate_nil hs
  have hitems : ((h.newDataset source properties types fmt).1.view h.nextDs).items =
      source.map (fun it => (it.1, (h.dicts it.2).map (fun c => (c.1, h.segOf c.2)))) := by
    simp only [Heap.newDataset, Heap.view, Function.update_self, hu]
    rfl
  have hitem : ∀ l cs, dictGet (source.map (fun it =>
      (it.1, (h.dicts it.2).map (fun c => (c.1, h.segOf c.2))))) l = some cs ↔
      ∃ r, (l, r) ∈ source ∧ (h.dicts r).map (fun c => (c.1, h.segOf c.2)) = cs := by
    intro l cs
    rw [dictGet_some_iff (by rw [List.map_map]; exact hs)]
    simp only [List.mem_map, Prod.mk.injEq, Prod.exists]
    constructor
    · rintro ⟨a, b, hab, rfl, rfl⟩; exact ⟨b, hab, rfl⟩
    · rintro ⟨r, hr, rfl⟩; exact ⟨l, r, hr, rfl, rfl⟩
  have hhas : ∀ l m v, Has ((h.newDataset source properties types fmt).1.view h.nextDs).items l m v ↔
      ∃ r s, (l, r) ∈ source ∧ (m, s) ∈ h.dicts r ∧ h.segOf s = v := by
    intro l m v
    rw [hitems]
    unfold Has
    constructor
    · rintro ⟨cs, h1, h2⟩
      obtain ⟨r, hr, rfl⟩ := (hitem l cs).1 h1
      rw [dictGet_some_iff (by rw [List.map_map]; exact hi r), List.mem_map] at h2
      obtain ⟨c, hc, e⟩ := h2
      simp only [Prod.mk.injEq] at e
      exact ⟨r, c.2, hr, by rw [← e.1]; exact hc, e.2⟩
    · rintro ⟨r, s, hr, hs', rfl⟩
      refine ⟨_, (hitem l _).2 ⟨r, hr, rfl⟩, ?_⟩
      rw [dictGet_some_iff (by rw [List.map_map]; exact hi r), List.mem_map]
      exact ⟨(m, s), hs', rfl⟩
  refine ⟨?_, ?_, hhas, ?_, ?_, ?_, ?_, ?_⟩
  · intro x hx
    refine ⟨by omega, ?_⟩
    apply view_congr
    · simp only [Heap.newDataset]
      rw [Function.update_of_ne (by omega)]
    · intro it _; rfl
    · intro k _; rfl
  · intro l
    rw [hitems]
    unfold HasItem
    constructor
    · rintro ⟨cs, h1⟩; obtain ⟨r, hr, _⟩ := (hitem l cs).1 h1; exact ⟨r, hr⟩
    · rintro ⟨r, hr⟩; exact ⟨_, (hitem l _).2 ⟨r, hr, rfl⟩⟩
  · intro c
    have hc : ((h.newDataset source properties types fmt).1.view h.nextDs).coders =
        source.foldl (fun acc it => (h.dicts it.2).foldl (fun acc c => insert c.1 acc) acc) ∅ := by
      simp only [Heap.newDataset, Heap.view, Function.update_self, hu]
    rw [hc, mem_collected]
    simp only [Finset.notMem_empty, false_or, hhas]
    constructor
    · rintro ⟨it, hit, e, he, rfl⟩
      exact ⟨it.1, _, it.2, e.2, hit, he, rfl⟩
    · rintro ⟨l, v, r, s, hr, hs', rfl⟩
      exact ⟨(l, r), hr, (c, s), hs', rfl⟩
  · intro k v
    simp only [Heap.newDataset, Heap.view, Function.update_self, dictUpdate_nil hp]
    exact dictGet_some_iff hp k v
  · simp [Heap.newDataset, Heap.view]
  · rintro s rfl; simp [Heap.newDataset, Heap.view]
  · rintro rfl; simp [Heap.newDataset, Heap.view]

/-- C80: the same for a dict literal, which also shares nothing with the datasets there are. -/
theorem C80_from_literal {h : Heap} (hv : Valid h) (items : List (Name × List (Name × SegRef)))
    (properties : List (Name × JVal)) (types : Option (Finset ℤ)) (fmt : BoundaryFormat)
    (hi : IsDict2 items) (hp : (properties.map Prod.fst).Nodup) {h' : Heap} {d : ℕ}
    (hd : h.newLiteral items properties types fmt = (h', d)) :
    (∀ x < h.nextDs, x ≠ d ∧ h'.view x = h.view x ∧ Apart h' d x) ∧
    (∀ l, HasItem (h'.view d).items l ↔ HasItem items l) ∧
    (∀ l m v, Has (h'.view d).items l m v ↔ ∃ s, Has items l m s ∧ h.segOf s = v) ∧
    CodersAre (h'.view d).items (h'.view d).coders ∧
    (∀ k v, dictGet (h'.view d).properties k = some v ↔ (k, v) ∈ properties) ∧
    (h'.view d).boundaryFormat = fmt ∧
    (∀ s, types = some s → (h'.view d).boundaryTypes = s) ∧
    (types = none → (h'.view d).boundaryTypes = {1}) := by
  have n := newDicts_spec items h
  set h1 := (Heap.newDicts items h).1 with hh1
  set refs := (Heap.newDicts items h).2 with hrefs
  have hkeys : refs.map Prod.fst = items.map Prod.fst := by
    have := congrArg (List.map Prod.fst) n.same
    rw [List.map_map] at this
    exact this
  have hin : ∀ r, ((h1.dicts r).map Prod.fst).Nodup := by
    intro r
    rcases n.rest r with e | ⟨it, hit, e⟩
    · rw [e]; exact hv.inner r
    · rw [e]; exact hi.2 it hit
  have hmem : ∀ l cs, (∃ r, (l, r) ∈ refs ∧ h1.dicts r = cs) ↔ dictGet items l = some cs := by
    intro l cs
    rw [dictGet_some_iff hi.1, ← n.same, List.mem_map]
    constructor
    · rintro ⟨r, hr, rfl⟩; exact ⟨(l, r), hr, rfl⟩
    · rintro ⟨x, hx, e⟩
      simp only [Prod.mk.injEq] at e
      exact ⟨x.2, by rw [← e.1]; exact hx, e.2⟩
  have hseg : ∀ s, h1.segOf s = h.segOf s := fun s => segOf_congr n.lists s
  obtain ⟨c1, c2, c3, c4⟩ := C80_from_dicts h1 refs properties types fmt (by rw [hkeys]; exact hi.1) hin hp hd
  refine ⟨?_, ?_, ?_, c4⟩
  · intro x hx
    obtain ⟨e1, e2⟩ := c1 x (by rw [n.nextDs]; exact hx)
    refine ⟨e1, ?_, ?_⟩
    · rw [e2]
      apply view_congr
      · rw [n.ds]
      · intro it hit; exact n.old _ (hv.refs x it hit)
      · intro k _; rw [n.lists]
    · have h'e : h' = (h1.newDataset refs properties types fmt).1 := (congrArg Prod.fst hd).symm
      have hde : d = h1.nextDs := (congrArg Prod.snd hd).symm
      subst h'e hde
      intro a ha b hb
      simp only [Heap.newDataset, Function.update_self,
        dictUpdate_nil (show (refs.map Prod.fst).Nodup by rw [hkeys]; exact hi.1)] at ha
      simp only [Heap.newDataset] at hb
      rw [Function.update_of_ne e1, n.ds] at hb
      have := n.new a ha
      have := hv.refs x b hb
      omega
  · intro l
    rw [c2]
    unfold HasItem
    constructor
    · rintro ⟨r, hr⟩; exact ⟨_, (hmem l _).1 ⟨r, hr, rfl⟩⟩
    · rintro ⟨cs, hcs⟩; obtain ⟨r, hr, _⟩ := (hmem l cs).2 hcs; exact ⟨r, hr⟩
  · intro l m v
    rw [c3]
    unfold Has
    constructor
    · rintro ⟨r, s, hr, hs, e⟩
      exact ⟨s, ⟨_, (hmem l _).1 ⟨r, hr, rfl⟩, (dictGet_some_iff (hin r) m s).2 hs⟩, by rw [← e, hseg]⟩
    · rintro ⟨s, ⟨cs, hcs, hs⟩, e⟩
      obtain ⟨r, hr, rfl⟩ := (hmem l cs).2 hcs
      exact ⟨r, s, hr, (dictGet_some_iff (hin r) m s).1 hs, by rw [hseg, e]⟩

/-- A dataset of `exHeap` is left alone by constructing another one in the NLTK format. -/
example : ∃ h' d, exHeap.newLiteral [(nX, [(nM, .tuple [1, 4]), (nN, .list 0)])] [(nY, .num 3)] none .nltk =
      (h', d) ∧ d = 2 ∧ (h'.view d).boundaryFormat = .nltk ∧ (h'.view d).boundaryTypes = {1} ∧
    (h'.view d).items = [(nX, [(nM, [1, 4]), (nN, [1, 4])])] :=
  ⟨_, _, rfl, rfl, by decide +kernel, by decide +kernel, by decide +kernel⟩

/-! ## Attributes stay -/

/-- The attributes other than coders agree. -/
def SameAttrs (o o' : DSObj) : Prop :=
  o'.properties = o.properties ∧ o'.boundaryTypes = o.boundaryTypes ∧ o'.boundaryFormat = o.boundaryFormat

theorem update_attrs (h : Heap) (d : ℕ) (o : DSObj) (ho : SameAttrs (h.ds d) o) (x : ℕ) :
    SameAttrs (h.ds x) (Function.update h.ds d o x) := by
  by_cases hx : x = d
  · subst hx; rw [Function.update_self]; exact ho
  · rw [Function.update_of_ne hx]; exact ⟨rfl, rfl, rfl⟩

theorem SameAttrs.trans {a b c : DSObj} (h : SameAttrs a b) (h' : SameAttrs b c) : SameAttrs a c :=
  ⟨h'.1.trans h.1, h'.2.1.trans h.2.1, h'.2.2.trans h.2.2⟩

theorem freshItem_attrs (h : Heap) (d : ℕ) (item : Name) (x : ℕ) :
    SameAttrs (h.ds x) ((h.freshItem d item).ds x) :=
  update_attrs h d { h.ds d with items := dictSet (h.ds d).items item h.nextDict } ⟨rfl, rfl, rfl⟩ x

theorem ensureItem_attrs (h : Heap) (d : ℕ) (item : Name) (x : ℕ) :
    SameAttrs (h.ds x) ((h.ensureItem d item).ds x) := by
  unfold Heap.ensureItem
  split
  · exact ⟨rfl, rfl, rfl⟩
  · exact freshItem_attrs h d item x

theorem setCoding_attrs (h : Heap) (d : ℕ) (item coder : Name) (v : SegRef) (x : ℕ) :
    SameAttrs (h.ds x) ((h.setCoding d item coder v).ds x) := by
  unfold Heap.setCoding
  split
  · exact ⟨rfl, rfl, rfl⟩
  · exact freshItem_attrs h d item x

theorem addCodings_attrs (d : ℕ) (item : Name) (cs : List (Name × SegRef)) (h : Heap) (x : ℕ) :
    SameAttrs (h.ds x) ((h.addCodings d item cs).1.ds x) := by
  induction cs generalizing h with
  | nil => exact ⟨rfl, rfl, rfl⟩
  | cons c cs ih =>
    obtain ⟨coder, v⟩ := c
    have h1 : SameAttrs (h.ds x) ((h.addCoder d coder).ds x) :=
      update_attrs h d { h.ds d with coders := insert coder (h.ds d).coders } ⟨rfl, rfl, rfl⟩ x
    rw [Heap.addCodings]
    split_ifs
    · exact h1
    · exact (h1.trans (setCoding_attrs _ d item coder v x)).trans (ih _)

theorem iaddItems_attrs (prepend : Option (List Name)) (d : ℕ) (l : List (Name × ℕ)) (h : Heap) (x : ℕ) :
    SameAttrs (h.ds x) ((Heap.iaddItems prepend d l h).1.ds x) := by
  induction l generalizing h with
  | nil => exact ⟨rfl, rfl, rfl⟩
  | cons e es ih =>
    obtain ⟨item0, r⟩ := e
    simp only [Heap.iaddItems]
    have h1 := ensureItem_attrs h d (DS.prefixed prepend item0) x
    have h2 := addCodings_attrs d (DS.prefixed prepend item0)
      ((h.ensureItem d (DS.prefixed prepend item0)).dicts r) (h.ensureItem d (DS.prefixed prepend item0)) x
    split
    · rename_i h3 e heq
      rw [heq] at h2
      exact h1.trans h2
    · rename_i h3 heq
      rw [heq] at h2
      exact (h1.trans h2).trans (ih _)

/-- C80: `+=`, with whatever datasets and whether it raises or not, changes no dataset's properties,
boundary types or format; so those of the right operand are never taken over. -/
theorem C80_iadd_keeps (h : Heap) (a b : ℕ) (prepend : Option (List Name)) (x : ℕ) :
    ((h.iadd a b prepend).1.view x).properties = (h.view x).properties ∧
    ((h.iadd a b prepend).1.view x).boundaryTypes = (h.view x).boundaryTypes ∧
    ((h.iadd a b prepend).1.view x).boundaryFormat = (h.view x).boundaryFormat :=
  iaddItems_attrs prepend a _ h x

/-- C80: the sum and the copy have the properties, boundary types and format of the left operand. -/
theorem C80_add_keeps (h : Heap) (a b : ℕ) {c : ℕ} (hc : (h.add a b).2 = .ok c) :
    ((h.add a b).1.view c).properties = (h.view a).properties ∧
    ((h.add a b).1.view c).boundaryTypes = (h.view a).boundaryTypes ∧
    ((h.add a b).1.view c).boundaryFormat = (h.view a).boundaryFormat := by
  have h1 := view_copy_self (h := h) a
  have hce : c = (h.copy a).2 := by
    unfold Heap.add at hc
    simp only at hc
    split at hc
    · cases hc; rfl
    · cases hc
  subst hce
  rw [add_fst]
  have h2 := C80_iadd_keeps (h.copy a).1 (h.copy a).2 b none (h.copy a).2
  rw [h1] at h2
  exact h2

/-- Both succeed on the two datasets of `exHeap`. -/
example : ((exHeap.add 0 1).2 = .ok 2) ∧ ((exHeap.iadd 0 1 none).2 = none) := by decide +kernel

/-- A dataset of masses `(2, 3)` and one of positions `(0, 0, 1, 1, 1)`. -/
def exMixed : Heap where
  ds d := if d = 0 then { items := [(nX, 0)], coders := {nM} }
    else if d = 1 then { items := [(nY, 1)], coders := {nN}, boundaryFormat := .position } else {}
  dicts r := if r = 0 then [(nM, .tuple [2, 3])] else if r = 1 then [(nN, .tuple [0, 0, 1, 1, 1])] else []
  lists _ := []
  nextDs := 2
  nextDict := 2
  nextList := 0

/-- C80: so adding a dataset in another format yields one whose codings no longer fit its format: the
positions of the right operand come out as masses. -/
theorem C80_mixed : (exMixed.iadd 0 1 none).2 = none ∧
    ((exMixed.iadd 0 1 none).1.view 0).boundaryFormat = .mass ∧
    ((exMixed.iadd 0 1 none).1.view 0).items = [(nX, [(nM, [2, 3])]), (nY, [(nN, [0, 0, 1, 1, 1])])] := by
  decide +kernel

end SegEval.Props
