import Verif.Lemmas.DataCopy

namespace SegEval

open Spec

/-! ## Coder sets -/

theorem Outcome.dict {V : Type _} {d : DS V} {l : List ((Name × Name) × V)} {r : DS V × Option PyErr}
    (h : Outcome d l r) : IsDict2 r.1.items := by
  rcases h with ⟨_, a, _⟩ | ⟨_, _, _, _, _, a, _⟩ <;> exact a.dict

theorem Added.has {V : Type _} {d d' : DS V} {done : List ((Name × Name) × V)} {extra : List Name}
    (h : Added d d' done extra) (hd : IsDict2 d.items) {l c : Name} {v : V} :
    Has d'.items l c v ↔ Has d.items l c v ∨ ((l, c), v) ∈ done := by
  rw [← mem_flat h.dict, h.perm.mem_iff, List.mem_append, mem_flat hd]

theorem Outcome.coders {V : Type _} {d : DS V} {l : List ((Name × Name) × V)}
    {r : DS V × Option PyErr} (h : Outcome d l r) (hd : IsDict2 d.items)
    (hc : CodersAre d.items d.coders) : CodersAre r.1.items r.1.coders := by
  have key : ∀ (done : List ((Name × Name) × V)) (extra : List Name), Added d r.1 done extra →
      (∀ c ∈ extra, ∃ label v, Has r.1.items label c v) → CodersAre r.1.items r.1.coders := by
    intro done extra a he c
    rw [a.coders, hc c]
    constructor
    · rintro (⟨l, v, h1⟩ | h1 | h1)
      · exact ⟨l, v, (a.has hd).2 (Or.inl h1)⟩
      · obtain ⟨x, hx, rfl⟩ := List.mem_map.1 h1
        exact ⟨x.1.1, x.2, (a.has hd).2 (Or.inr hx)⟩
      · exact he c h1
    · rintro ⟨l, v, h1⟩
      rcases (a.has hd).1 h1 with h2 | h2
      · exact Or.inl ⟨l, v, h2⟩
      · exact Or.inr (Or.inl (List.mem_map.2 ⟨_, h2, rfl⟩))
  rcases h with ⟨_, a, _⟩ | ⟨_, done, x, rest, _, a, _, a4⟩
  · exact key _ _ a (by simp)
  · refine key _ _ a ?_
    intro c hcx
    rw [List.mem_singleton] at hcx
    subst hcx
    obtain ⟨y, hy, e⟩ := List.mem_map.1 a4
    refine ⟨x.1.1, y.2, (mem_flat a.dict).1 (a.perm.mem_iff.2 ?_)⟩
    have : y = ((x.1.1, x.1.2), y.2) := by rw [← e]
    rw [← this]; exact hy

theorem view_dict {h : Heap} (hv : Valid h) (d : ℕ) : IsDict2 (h.view d).items := by
  rw [view_items]
  constructor
  · rw [List.map_map]; exact hv.keys d
  · intro e he
    obtain ⟨it, _, rfl⟩ := List.mem_map.1 he
    simp only [Heap.codingsAt, List.map_map]
    exact hv.inner it.2

/-! ## Adding a dataset to itself -/

theorem iadd_self_aux {h : Heap} (hv : Valid h) (d : ℕ) (l : List (Name × ℕ))
    (hl : ∀ x ∈ l, x ∈ (h.ds d).items) :
    (Heap.iaddItems none d l h = (h, none) ∧ ∀ x ∈ l, h.dicts x.2 = []) ∨
    ∃ coder, (∃ x ∈ l, ∃ c ∈ h.dicts x.2, c.1 = coder) ∧
      Heap.iaddItems none d l h = (h.addCoder d coder, some .dataIOError) := by
  induction l with
  | nil => exact Or.inl ⟨rfl, by simp⟩
  | cons x rest ih =>
    have hx : dictGet (h.ds d).items x.1 = some x.2 := dictGet_of_mem (hv.keys d) (hl x (by simp))
    have he : h.ensureItem d x.1 = h := by simp only [Heap.ensureItem, hx]
    rw [iaddItems_cons]
    have hr : h.round none d x = h.addCodings d x.1 (h.dicts x.2) := by
      unfold Heap.round
      simp only [DS.prefixed, he]
    rw [hr]
    cases hd : h.dicts x.2 with
    | nil =>
      simp only [Heap.addCodings]
      rcases ih (fun y hy => hl y (by simp [hy])) with ⟨h1, h2⟩ | ⟨c, ⟨y, hy, h1⟩, h2⟩
      · refine Or.inl ⟨h1, ?_⟩
        intro y hy
        rcases List.mem_cons.1 hy with rfl | hy
        · exact hd
        · exact h2 y hy
      · exact Or.inr ⟨c, ⟨y, by simp [hy], h1⟩, h2⟩
    | cons e es =>
      obtain ⟨coder, v⟩ := e
      rw [addCodings_step h d x.1 hx, if_pos (by rw [hd]; simp [dictGet])]
      exact Or.inr ⟨coder, ⟨x, by simp, (coder, v), by rw [hd]; simp, rfl⟩, rfl⟩

theorem iadd_self {h : Heap} (hv : Valid h) (d : ℕ) (hc : CodersAre (h.view d).items (h.view d).coders) :
    (∀ x, (h.iadd d d none).1.view x = h.view x) ∧
    ((h.iadd d d none).2 = none ↔ ∀ l c v, ¬ Has (h.view d).items l c v) ∧
    ((h.iadd d d none).2 ≠ none → (h.iadd d d none).2 = some .dataIOError) := by
  have hhas : ∀ x ∈ (h.ds d).items, ∀ c ∈ h.dicts x.2,
      Has (h.view d).items x.1 c.1 (h.segOf c.2) := by
    intro x hx c hcc
    refine ⟨h.codingsAt x.2, ?_, ?_⟩
    · rw [view_items, dictGet_map, dictGet_of_mem (hv.keys d) hx]; rfl
    · have e1 := dictGet_map h.segOf (h.dicts x.2) c.1
      rw [dictGet_of_mem (hv.inner x.2) hcc] at e1
      exact e1
  rcases iadd_self_aux hv d (h.ds d).items (fun x hx => hx) with ⟨h1, h2⟩ | ⟨coder, ⟨x, hx, c, hcc, rfl⟩, h2⟩
  · unfold Heap.iadd
    rw [h1]
    refine ⟨fun _ => rfl, ⟨fun _ => ?_, fun _ => rfl⟩, fun h => absurd rfl h⟩
    rintro l c v ⟨cs, g1, g2⟩
    rw [view_items, dictGet_map] at g1
    cases hg : dictGet (h.ds d).items l with
    | none => rw [hg] at g1; cases g1
    | some r =>
      rw [hg] at g1
      simp only [Option.map_some, Option.some.injEq] at g1
      have := h2 _ (dictGet_mem hg)
      simp only at this
      rw [Heap.codingsAt, this] at g1
      rw [← g1] at g2
      cases g2
  · unfold Heap.iadd
    rw [h2]
    have hin : c.1 ∈ (h.view d).coders := (hc c.1).2 ⟨_, _, hhas x hx c hcc⟩
    refine ⟨?_, ?_, fun _ => rfl⟩
    · intro y
      by_cases hy : y = d
      · subst hy
        simp only
        rw [view_addCoder, Finset.insert_eq_of_mem hin]
      · simp only
        refine view_congr (Function.update_of_ne hy _ _) (fun _ _ => by rfl) (fun _ _ => by rfl)
    · simp only [reduceCtorEq, false_iff]
      intro hno
      exact hno _ _ _ (hhas x hx c hcc)

/-! ## Histories -/

/-- All datasets are apart, and have the right coders. -/
structure Tidy (h : Heap) : Prop where
  valid : Valid h
  noAlias : ∀ d, NoAlias h d
  apart : ∀ d e, d ≠ e → Apart h d e
  coders : ∀ d, CodersAre (h.view d).items (h.view d).coders
  free : ∀ d, h.nextDs ≤ d → (h.ds d).items = []

theorem iaddItems_alias (prepend : Option (List Name)) (d : ℕ) (l : List (Name × ℕ)) (h : Heap)
    (hv : Valid h) (hn : NoAlias h d) : NoAlias (Heap.iaddItems prepend d l h).1 d := by
  induction l generalizing h with
  | nil => exact hn
  | cons x rest ih =>
    rw [iaddItems_cons]
    have v1 := round_valid hv prepend d x
    have n1 := round_alias hv prepend x hn
    cases hr : h.round prepend d x with
    | mk h' oe =>
      rw [hr] at v1 n1
      cases oe with
      | some e => exact n1
      | none => exact ih h' v1 n1

theorem tidy_iadd {h : Heap} (t : Tidy h) (a b : ℕ) (ha : a < h.nextDs) :
    Tidy (h.iadd a b none).1 := by
  obtain ⟨s1, s2⟩ := iaddItems_set none a (h.ds b).items h
  have hal := iaddItems_alias none a (h.ds b).items h t.valid (t.noAlias a)
  refine ⟨s2 t.valid, ?_, ?_, ?_, ?_⟩
  · intro d
    by_cases hd : d = a
    · subst hd; exact hal
    · unfold NoAlias Heap.iadd
      rw [s1.others d hd]
      exact t.noAlias d
  · have key : ∀ e, e ≠ a → Apart (h.iadd a b none).1 a e := by
      intro e he x hx y hy
      have hy' : y ∈ (h.ds e).items := by rw [← s1.others e he]; exact hy
      rcases s1.refs x hx with ⟨x0, h0, e0⟩ | ⟨h0, _⟩
      · rw [← e0]; exact t.apart a e (Ne.symm he) x0 h0 y hy'
      · have := t.valid.refs e y hy'
        omega
    intro d e hde
    by_cases hd : d = a
    · subst hd; exact key e (Ne.symm hde)
    · by_cases he : e = a
      · subst he
        intro x hx y hy hxy
        exact key d hd y hy x hx hxy.symm
      · intro x hx y hy
        unfold Heap.iadd at hx hy
        rw [s1.others d hd] at hx
        rw [s1.others e he] at hy
        exact t.apart d e hde x hx y hy
  · intro d
    by_cases hd : d = a
    · subst hd
      by_cases hb : b = d
      · subst hb
        rw [(iadd_self t.valid b (t.coders b)).1 b]
        exact t.coders b
      · have h1 := iadd_sim t.valid (t.noAlias d) (t.apart d b (Ne.symm hb))
        have h2 := iadd_outcome none (h.view d) (view_dict t.valid d) (h.view b).items
        rw [← h1] at h2
        exact h2.coders (view_dict t.valid d) (t.coders d)
    · rw [iadd_others t.valid a b hd (t.apart a d (Ne.symm hd))]
      exact t.coders d
  · intro d hd
    have hd' : h.nextDs ≤ d := by
      have := s1.nextDs
      unfold Heap.iadd at hd
      omega
    unfold Heap.iadd
    rw [s1.others d (by omega)]
    exact t.free d hd'

theorem tidy_copy {h : Heap} (t : Tidy h) (a : ℕ) : Tidy (h.copy a).1 := by
  have hiso := copy_isolated t.valid a
  refine ⟨copy_valid t.valid a, ?_, ?_, ?_, ?_⟩
  · intro d
    by_cases hd : d = h.nextDs
    · subst hd; exact copy_alias (t.noAlias a)
    · unfold NoAlias
      simp only [Heap.copy]
      rw [Function.update_of_ne hd]
      exact t.noAlias d
  · intro d e hde
    by_cases hd : d = h.nextDs
    · subst hd; exact hiso.apart e (Ne.symm hde)
    · by_cases he : e = h.nextDs
      · subst he
        intro x hx y hy hxy
        exact hiso.apart d hd y hy x hx hxy.symm
      · intro x hx y hy
        simp only [Heap.copy] at hx hy
        rw [Function.update_of_ne hd] at hx
        rw [Function.update_of_ne he] at hy
        exact t.apart d e hde x hx y hy
  · intro d
    by_cases hd : d = h.nextDs
    · subst hd
      have := view_copy_self (h := h) a
      change CodersAre ((h.copy a).1.view (h.copy a).2).items ((h.copy a).1.view (h.copy a).2).coders
      rw [this]
      exact t.coders a
    · rw [view_copy_other t.valid a hd]; exact t.coders d
  · intro d hd
    simp only [Heap.copy] at hd ⊢
    rw [Function.update_of_ne (by omega)]
    exact t.free d (by omega)

/-- What allocating the inner dicts of a literal does. -/
structure NewDicts (h h' : Heap) (items : List (Name × List (Name × SegRef))) (refs : List (Name × ℕ)) :
    Prop where
  ds : h'.ds = h.ds
  lists : h'.lists = h.lists
  nextDs : h'.nextDs = h.nextDs
  nextList : h'.nextList = h.nextList
  nextDict : h.nextDict ≤ h'.nextDict
  old : ∀ r, r < h.nextDict → h'.dicts r = h.dicts r
  new : ∀ x ∈ refs, h.nextDict ≤ x.2 ∧ x.2 < h'.nextDict
  nodup : (refs.map Prod.snd).Nodup
  same : refs.map (fun x => (x.1, h'.dicts x.2)) = items
  rest : ∀ r, h'.dicts r = h.dicts r ∨ ∃ it ∈ items, h'.dicts r = it.2

theorem newDicts_spec (items : List (Name × List (Name × SegRef))) (h : Heap) :
    NewDicts h (Heap.newDicts items h).1 items (Heap.newDicts items h).2 := by
  induction items generalizing h with
  | nil =>
    exact ⟨rfl, rfl, rfl, rfl, le_refl _, fun _ _ => rfl, by simp [Heap.newDicts],
      by simp [Heap.newDicts], rfl, fun _ => Or.inl rfl⟩
  | cons e rest ih =>
    obtain ⟨label, cs⟩ := e
    simp only [Heap.newDicts]
    set h0 : Heap := { h with dicts := Function.update h.dicts h.nextDict cs,
                              nextDict := h.nextDict + 1 } with hh0
    have i := ih h0
    have hn : h0.nextDict = h.nextDict + 1 := rfl
    refine ⟨i.ds, i.lists, i.nextDs, i.nextList, ?_, ?_, ?_, ?_, ?_, ?_⟩
    · have := i.nextDict; omega
    · intro r hr
      rw [i.old r (by omega)]
      exact Function.update_of_ne (by omega) _ _
    · intro x hx
      rcases List.mem_cons.1 hx with rfl | hx
      · have := i.nextDict; simp only; omega
      · have := i.new x hx; omega
    · rw [List.map_cons, List.nodup_cons]
      refine ⟨?_, i.nodup⟩
      intro hm
      obtain ⟨x, hx, e⟩ := List.mem_map.1 hm
      have := i.new x hx
      omega
    · rw [List.map_cons, i.same]
      simp only
      rw [i.old h.nextDict (by omega)]
      simp only [hh0, Function.update_self]
    · intro r
      rcases i.rest r with h1 | ⟨it, hit, h1⟩
      · by_cases hr : r = h.nextDict
        · right
          refine ⟨(label, cs), by simp, ?_⟩
          rw [h1, hr]
          simp only [hh0, Function.update_self]
        · left
          rw [h1]
          exact Function.update_of_ne hr _ _
      · exact Or.inr ⟨it, by simp [hit], h1⟩

theorem dictUpdate_nil {κ α : Type _} [DecidableEq κ] {l : List (κ × α)} (h : (l.map Prod.fst).Nodup) :
    dictUpdate [] l = l := by
  have : ∀ (l d : List (κ × α)), ((d ++ l).map Prod.fst).Nodup → dictUpdate d l = d ++ l := by
    intro l
    induction l with
    | nil => intro d _; simp [dictUpdate]
    | cons e es ih =>
      intro d hd
      obtain ⟨k, v⟩ := e
      have hno : dictGet d k = none := by
        rw [dictGet_none_iff]
        intro e he hk
        rw [List.map_append, List.nodup_append] at hd
        exact hd.2.2 e.1 (List.mem_map.2 ⟨e, he, rfl⟩) k (by simp) hk
      change dictUpdate (dictSet d k v) es = _
      rw [dictSet_new hno, ih _ (by simpa using hd)]
      simp
  simpa using this l [] (by simpa using h)

theorem tidy_construct {h : Heap} (t : Tidy h) (items : List (Name × List (Name × SegRef)))
    (properties : List (Name × JVal)) (bt : Option (Finset ℤ)) (fmt : BoundaryFormat)
    (hd : IsDict2 items)
    (hl : ∀ it ∈ items, ∀ c ∈ it.2, ∀ k, c.2 = .list k → k < h.nextList) :
    Tidy (h.newLiteral items properties bt fmt).1 := by
  have n := newDicts_spec items h
  set h1 := (Heap.newDicts items h).1 with hh1
  set refs := (Heap.newDicts items h).2 with hrefs
  have hkeys : refs.map Prod.fst = items.map Prod.fst := by
    have := congrArg (List.map Prod.fst) n.same
    rw [List.map_map] at this
    exact this
  have hu : dictUpdate [] refs = refs := dictUpdate_nil (by rw [hkeys]; exact hd.1)
  have hv := t.valid
  have hitems : ((h.newLiteral items properties bt fmt).1.ds h.nextDs).items = refs := by
    unfold Heap.newLiteral Heap.newDataset
    simp only [← hh1, ← hrefs, n.nextDs, Function.update_self, hu]
  have hother : ∀ d, d ≠ h.nextDs → (h.newLiteral items properties bt fmt).1.ds d = h.ds d := by
    intro d hdn
    unfold Heap.newLiteral Heap.newDataset
    simp only [← hh1, n.nextDs]
    rw [Function.update_of_ne hdn, n.ds]
  have hdicts : (h.newLiteral items properties bt fmt).1.dicts = h1.dicts := rfl
  have hlists : (h.newLiteral items properties bt fmt).1.lists = h.lists := n.lists
  have hnd : (h.newLiteral items properties bt fmt).1.nextDict = h1.nextDict := rfl
  have hnl : (h.newLiteral items properties bt fmt).1.nextList = h.nextList := n.nextList
  have hvalid : Valid (h.newLiteral items properties bt fmt).1 := by
    constructor
    · intro d it hit
      rw [hnd]
      by_cases hdn : d = h.nextDs
      · subst hdn; rw [hitems] at hit; exact (n.new it hit).2
      · rw [hother d hdn] at hit
        exact lt_of_lt_of_le (hv.refs d it hit) n.nextDict
    · intro d
      by_cases hdn : d = h.nextDs
      · subst hdn; rw [hitems, hkeys]; exact hd.1
      · rw [hother d hdn]; exact hv.keys d
    · intro r
      rw [hdicts]
      rcases n.rest r with e | ⟨it, hit, e⟩
      · rw [e]; exact hv.inner r
      · rw [e]; exact hd.2 it hit
    · intro r c hc k hk
      rw [hdicts] at hc
      rw [hnl]
      rcases n.rest r with e | ⟨it, hit, e⟩
      · rw [e] at hc; exact hv.lists r c hc k hk
      · rw [e] at hc; exact hl it hit c hc k hk
  refine ⟨hvalid, ?_, ?_, ?_, ?_⟩
  · intro d
    unfold NoAlias
    by_cases hdn : d = h.nextDs
    · subst hdn; rw [hitems]; exact n.nodup
    · rw [hother d hdn]; exact t.noAlias d
  · have key : ∀ e, e ≠ h.nextDs → Apart (h.newLiteral items properties bt fmt).1 h.nextDs e := by
      intro e he x hx y hy
      rw [hitems] at hx
      rw [hother e he] at hy
      have := n.new x hx
      have := hv.refs e y hy
      omega
    intro d e hde
    by_cases hdn : d = h.nextDs
    · subst hdn; exact key e (Ne.symm hde)
    · by_cases hen : e = h.nextDs
      · subst hen
        intro x hx y hy hxy
        exact key d hdn y hy x hx hxy.symm
      · intro x hx y hy
        rw [hother d hdn] at hx
        rw [hother e hen] at hy
        exact t.apart d e hde x hx y hy
  · intro d
    by_cases hdn : d = h.nextDs
    · subst hdn
      have hc : ((h.newLiteral items properties bt fmt).1.view h.nextDs).coders =
          refs.foldl (fun acc it => (h1.dicts it.2).foldl (fun acc c => insert c.1 acc) acc) ∅ := by
        unfold Heap.newLiteral Heap.newDataset Heap.view
        simp only [← hh1, ← hrefs, n.nextDs, Function.update_self, hu]
      have hm : ∀ (l : List (Name × ℕ)) (s : Finset Name) (c : Name),
          c ∈ l.foldl (fun acc it => (h1.dicts it.2).foldl (fun acc c => insert c.1 acc) acc) s ↔
            c ∈ s ∨ ∃ it ∈ l, ∃ e ∈ h1.dicts it.2, e.1 = c := by
        have inner : ∀ (l : List (Name × SegRef)) (s : Finset Name) (c : Name),
            c ∈ l.foldl (fun acc c => insert c.1 acc) s ↔ c ∈ s ∨ ∃ e ∈ l, e.1 = c := by
          intro l
          induction l with
          | nil => simp
          | cons e es ih =>
            intro s c
            rw [List.foldl_cons, ih]
            simp only [Finset.mem_insert, List.mem_cons, exists_eq_or_imp, eq_comm (a := c)]
            tauto
        intro l
        induction l with
        | nil => simp
        | cons e es ih =>
          intro s c
          rw [List.foldl_cons, ih, inner]
          simp only [List.mem_cons, exists_eq_or_imp]
          exact or_assoc
      intro c
      rw [hc, hm]
      simp only [Finset.notMem_empty, false_or]
      have hvi := view_dict hvalid h.nextDs
      constructor
      · rintro ⟨it, hit, e, he, rfl⟩
        refine ⟨it.1, (h.newLiteral items properties bt fmt).1.segOf e.2, ?_⟩
        rw [← mem_flat hvi, view_items, hitems]
        unfold flat
        rw [List.mem_flatMap]
        refine ⟨_, List.mem_map.2 ⟨it, hit, rfl⟩, ?_⟩
        refine List.mem_map.2 ⟨(e.1, (h.newLiteral items properties bt fmt).1.segOf e.2), ?_, rfl⟩
        unfold Heap.codingsAt
        exact List.mem_map.2 ⟨e, he, rfl⟩
      · rintro ⟨l, v, hh⟩
        rw [← mem_flat hvi, view_items, hitems] at hh
        unfold flat at hh
        rw [List.mem_flatMap] at hh
        obtain ⟨x, hx, hx2⟩ := hh
        obtain ⟨it, hit, rfl⟩ := List.mem_map.1 hx
        obtain ⟨y, hy, e2⟩ := List.mem_map.1 hx2
        unfold Heap.codingsAt at hy
        obtain ⟨z, hz, rfl⟩ := List.mem_map.1 hy
        simp only [Prod.mk.injEq] at e2
        exact ⟨it, hit, z, hz, e2.1.2⟩
    · have : (h.newLiteral items properties bt fmt).1.view d = h.view d := by
        apply view_congr (hother d hdn)
        · intro it hit
          rw [hdicts]
          exact n.old _ (hv.refs d it hit)
        · intro k _; rw [hlists]
      rw [this]; exact t.coders d
  · intro d hdd
    have : (h.newLiteral items properties bt fmt).1.nextDs = h.nextDs + 1 := by
      change h1.nextDs + 1 = _; rw [n.nextDs]
    rw [hother d (by omega)]
    exact t.free d (by omega)

theorem History.tidy {h : Heap} (hh : History h) : Tidy h := by
  induction hh with
  | start lists n =>
    refine ⟨⟨by simp, by simp, by simp, by simp⟩, by simp [NoAlias], by simp [Apart], ?_, by simp⟩
    intro d c
    simp [Heap.view, Has, dictGet]
  | construct items p bt fmt hd hl _ ih => exact tidy_construct ih items p bt fmt hd hl
  | iadd a b ha _ ih => exact tidy_iadd ih a b ha
  | @add h a b hb _ ih =>
    rw [add_fst]
    exact tidy_iadd (tidy_copy ih a) _ b (Nat.lt_succ_self h.nextDs)
  | copy a _ ih => exact tidy_copy ih a

end SegEval
