import Verif.Lemmas.DataHeap

namespace SegEval

open Spec

/-! ## Deep copies -/

theorem view_copy_other {h : Heap} (hv : Valid h) (a : ℕ) {x : ℕ} (hx : x ≠ h.nextDs) :
    (h.copy a).1.view x = h.view x := by
  apply view_congr
  · exact Function.update_of_ne hx _ _
  · intro it hit
    have := hv.refs x it hit
    simp only [Heap.copy]
    rw [if_neg (by omega)]
  · rintro k ⟨it, hit, c, hc, hk⟩
    have := hv.lists _ c hc k hk
    simp only [Heap.copy]
    rw [if_neg (by omega)]

theorem view_copy_self {h : Heap} (a : ℕ) : (h.copy a).1.view (h.copy a).2 = h.view a := by
  unfold Heap.view
  simp only [Heap.copy, Function.update_self, List.map_map, DS.mk.injEq, and_true]
  apply List.map_congr_left
  intro it _
  simp only [Function.comp_def]
  rw [if_pos (by omega), Nat.add_sub_cancel_left, List.map_map]
  congr 1
  apply List.map_congr_left
  intro c _
  simp only [Function.comp_def]
  congr 1
  cases c.2 with
  | tuple l => rfl
  | list k =>
    simp only [Heap.SegRef.shift, Heap.segOf]
    rw [if_pos (by omega), Nat.add_sub_cancel_left]

theorem shift_list {n k : ℕ} {v : SegRef} (h : Heap.SegRef.shift n v = .list k) :
    ∃ k', v = .list k' ∧ k = n + k' := by
  cases v with
  | tuple l => cases h
  | list k' =>
    refine ⟨k', rfl, ?_⟩
    simp only [Heap.SegRef.shift, SegRef.list.injEq] at h
    exact h.symm

theorem copy_valid {h : Heap} (hv : Valid h) (a : ℕ) : Valid (h.copy a).1 where
  refs x it hit := by
    simp only [Heap.copy] at hit ⊢
    by_cases hx : x = h.nextDs
    · subst hx
      rw [Function.update_self] at hit
      obtain ⟨it0, h0, rfl⟩ := List.mem_map.1 hit
      have := hv.refs a it0 h0
      simp only
      omega
    · rw [Function.update_of_ne hx] at hit
      have := hv.refs x it hit
      omega
  keys x := by
    simp only [Heap.copy]
    by_cases hx : x = h.nextDs
    · subst hx
      rw [Function.update_self, List.map_map]
      exact hv.keys a
    · rw [Function.update_of_ne hx]; exact hv.keys x
  inner r := by
    simp only [Heap.copy]
    split
    · rw [List.map_map]; exact hv.inner _
    · exact hv.inner r
  lists r c hc k hk := by
    simp only [Heap.copy] at hc ⊢
    split at hc
    · obtain ⟨c0, h0, rfl⟩ := List.mem_map.1 hc
      obtain ⟨k', e1, e2⟩ := shift_list hk
      have := hv.lists _ c0 h0 k' e1
      omega
    · have := hv.lists r c hc k hk
      omega

/-- The dataset shares neither dict nor list objects with any other. -/
structure Isolated (h : Heap) (c : ℕ) : Prop where
  valid : Valid h
  apart : ∀ x, x ≠ c → Apart h c x
  lists : ∀ x, x ≠ c → ∀ k, HoldsList h c k → ¬ HoldsList h x k

theorem copy_holds {h : Heap} {a k : ℕ} (hk : HoldsList (h.copy a).1 h.nextDs k) :
    h.nextList ≤ k := by
  obtain ⟨it, hit, c, hc, hk⟩ := hk
  simp only [Heap.copy, Function.update_self] at hit hc
  obtain ⟨it0, h0, rfl⟩ := List.mem_map.1 hit
  simp only at hc
  rw [if_pos (by omega)] at hc
  obtain ⟨c0, g0, rfl⟩ := List.mem_map.1 hc
  obtain ⟨k', _, e2⟩ := shift_list hk
  omega

theorem copy_isolated {h : Heap} (hv : Valid h) (a : ℕ) : Isolated (h.copy a).1 (h.copy a).2 where
  valid := copy_valid hv a
  apart x hx it hit y hy := by
    simp only [Heap.copy, Function.update_self] at hit hy hx
    rw [Function.update_of_ne hx] at hy
    obtain ⟨it0, h0, rfl⟩ := List.mem_map.1 hit
    have := hv.refs x y hy
    simp only
    omega
  lists x hx k hk := by
    have h1 := copy_holds hk
    rintro ⟨it, hit, c, hc, hk'⟩
    simp only [Heap.copy] at hit hc hx
    rw [Function.update_of_ne hx] at hit
    have := hv.refs x it hit
    rw [if_neg (by omega)] at hc
    have := hv.lists _ c hc k hk'
    omega

theorem copy_alias {h : Heap} {a : ℕ} (hn : NoAlias h a) : NoAlias (h.copy a).1 (h.copy a).2 := by
  unfold NoAlias at hn ⊢
  simp only [Heap.copy, Function.update_self, List.map_map]
  have : (Prod.snd ∘ fun it : Name × ℕ => (it.1, h.nextDict + it.2)) = (fun n => h.nextDict + n) ∘ Prod.snd := rfl
  rw [this, ← List.map_map]
  exact hn.map (fun a b hab => Nat.add_left_cancel hab)

/-! ## Later changes -/

theorem iso_of_set {h h' : Heap} {c : ℕ} (hI : Isolated h c) (s : OneSet h h' c) (v : Valid h')
    (hl : ∀ k, HoldsList h' c k → HoldsList h c k ∨ ∀ x, x ≠ c → ¬ HoldsList h x k) :
    Isolated h' c ∧ ∀ x, x ≠ c → h'.view x = h.view x := by
  have hd : ∀ x, x ≠ c → ∀ it ∈ (h.ds x).items, h'.dicts it.2 = h.dicts it.2 := by
    intro x hx it hit
    exact s.dicts it.2 (hI.valid.refs x it hit) (fun it0 h0 => hI.apart x hx it0 h0 it hit)
  have hh : ∀ x, x ≠ c → ∀ k, HoldsList h' x k → HoldsList h x k := by
    rintro x hx k ⟨it, hit, e, he, hk⟩
    rw [s.others x hx] at hit
    rw [hd x hx it hit] at he
    exact ⟨it, hit, e, he, hk⟩
  refine ⟨⟨v, ?_, ?_⟩, ?_⟩
  · intro x hx it hit y hy
    rw [s.others x hx] at hy
    rcases s.refs it hit with ⟨it0, h0, e0⟩ | ⟨h0, _⟩
    · rw [← e0]; exact hI.apart x hx it0 h0 y hy
    · have := hI.valid.refs x y hy
      omega
  · intro x hx k hk hk'
    rcases hl k hk with h1 | h1
    · exact hI.lists x hx k h1 (hh x hx k hk')
    · exact h1 x hx (hh x hx k hk')
  · intro x hx
    exact view_congr (s.others x hx) (hd x hx) (fun k _ => by rw [s.lists])

theorem setCoding_set (h : Heap) (c : ℕ) (item coder : Name) (v : SegRef) :
    OneSet h (h.setCoding c item coder v) c ∧
    (Valid h → (∀ k, v = .list k → k < h.nextList) → Valid (h.setCoding c item coder v)) ∧
    (Valid h → ∀ k, HoldsList (h.setCoding c item coder v) c k → HoldsList h c k ∨ v = .list k) := by
  cases hg : dictGet (h.ds c).items item with
  | some r =>
    have h1 := setCoding_one hg coder v
    refine ⟨h1.oneSet ⟨_, dictGet_mem hg, rfl⟩, ?_, ?_⟩
    · intro hv hl
      rw [setCoding_some hg]
      refine ⟨hv.refs, hv.keys, ?_, ?_⟩
      · intro x
        simp only
        by_cases hx : x = r
        · subst hx; rw [Function.update_self]; exact dictKeys_dictSet_nodup (hv.inner x)
        · rw [Function.update_of_ne hx]; exact hv.inner x
      · intro x e he k hk
        simp only at he ⊢
        by_cases hx : x = r
        · subst hx
          rw [Function.update_self] at he
          rcases mem_dictSet he with h' | h'
          · exact hv.lists x e h' k hk
          · exact hl k (h'.symm.trans hk)
        · rw [Function.update_of_ne hx] at he; exact hv.lists x e he k hk
    · rintro _ k ⟨it, hit, e, he, hk⟩
      rw [h1.items] at hit
      rw [setCoding_some hg] at he
      simp only at he
      by_cases hx : it.2 = r
      · rw [hx, Function.update_self] at he
        rcases mem_dictSet he with h' | h'
        · rw [← hx] at h'; exact Or.inl ⟨it, hit, e, h', hk⟩
        · right; rw [← h']; exact hk
      · rw [Function.update_of_ne hx] at he
        exact Or.inl ⟨it, hit, e, he, hk⟩
  | none =>
    have e0 : h.setCoding c item coder v = { h.freshItem c item with
        dicts := Function.update (h.freshItem c item).dicts h.nextDict (dictSet [] coder v) } := by
      simp only [Heap.setCoding, hg]
    have hs := freshItem_set h c item
    rw [e0]
    refine ⟨⟨hs.lists, hs.nextDs, hs.nextDict, hs.nextList, hs.others, hs.refs, ?_⟩, ?_, ?_⟩
    · intro r hr hn
      simp only
      rw [Function.update_of_ne (by omega)]
      exact hs.dicts r hr hn
    · intro hv hl
      have hv' := freshItem_valid hv c item
      refine ⟨hv'.refs, hv'.keys, ?_, ?_⟩
      · intro x
        simp only
        by_cases hx : x = h.nextDict
        · subst hx; rw [Function.update_self]; simp [dictSet]
        · rw [Function.update_of_ne hx]; exact hv'.inner x
      · intro x e he k hk
        simp only at he ⊢
        by_cases hx : x = h.nextDict
        · subst hx
          rw [Function.update_self] at he
          simp only [dictSet, List.mem_singleton] at he
          subst he
          exact hl k hk
        · rw [Function.update_of_ne hx] at he; exact hv'.lists x e he k hk
    · rintro hv k ⟨it, hit, e, he, hk⟩
      simp only at hit he
      by_cases hx : it.2 = h.nextDict
      · rw [hx, Function.update_self] at he
        simp only [dictSet, List.mem_singleton] at he
        subst he
        exact Or.inr hk
      · rw [Function.update_of_ne hx] at he
        simp only [Heap.freshItem, Function.update_self] at hit he
        rw [Function.update_of_ne hx] at he
        rcases mem_dictSet hit with h' | h'
        · exact Or.inl ⟨it, h', e, he, hk⟩
        · exact absurd h' hx

theorem update_isolated {h h' : Heap} {c : ℕ} (hI : Isolated h c) (u : Update c h h') :
    Isolated h' c ∧ ∀ x, x ≠ c → h'.view x = h.view x := by
  cases u with
  | tuple item coder l =>
    obtain ⟨s1, s2, s3⟩ := setCoding_set h c item coder (.tuple l)
    refine iso_of_set hI s1 (s2 hI.valid (fun k hk => by cases hk)) ?_
    intro k hk
    rcases s3 hI.valid k hk with h' | h'
    · exact Or.inl h'
    · cases h'
  | list item coder l =>
    set h0 : Heap := { h with lists := Function.update h.lists h.nextList l
                              nextList := h.nextList + 1 } with hh0
    have v0 : Valid h0 := ⟨hI.valid.refs, hI.valid.keys, hI.valid.inner,
      fun r e he k hk => Nat.lt_succ_of_lt (hI.valid.lists r e he k hk)⟩
    have I0 : Isolated h0 c := ⟨v0, hI.apart, hI.lists⟩
    have w0 : ∀ x, h0.view x = h.view x := by
      intro x
      refine view_congr (by rfl) (fun _ _ => by rfl) ?_
      rintro k ⟨it, hit, e, he, hk⟩
      have := hI.valid.lists _ e he k hk
      exact Function.update_of_ne (by omega) _ _
    obtain ⟨s1, s2, s3⟩ := setCoding_set h0 c item coder (.list h.nextList)
    have := iso_of_set I0 s1 (s2 v0 (fun k hk => by
      cases hk; exact Nat.lt_succ_self _)) (by
      intro k hk
      rcases s3 v0 k hk with h' | h'
      · exact Or.inl h'
      · right
        rintro x hx ⟨it, hit, e, he, hk'⟩
        cases h'
        have := hI.valid.lists _ e he h.nextList hk'
        omega)
    exact ⟨this.1, fun x hx => (this.2 x hx).trans (w0 x)⟩
  | newItem item =>
    refine iso_of_set hI (freshItem_set h c item) (freshItem_valid hI.valid c item) ?_
    rintro k ⟨it, hit, e, he, hk⟩
    simp only [Heap.freshItem, Function.update_self] at hit he
    by_cases hx : it.2 = h.nextDict
    · rw [hx, Function.update_self] at he; cases he
    · rw [Function.update_of_ne hx] at he
      rcases mem_dictSet hit with h' | h'
      · exact Or.inl ⟨it, h', e, he, hk⟩
      · exact absurd h' hx
  | object o hk hr =>
    refine iso_of_set hI ⟨rfl, rfl, le_refl _, rfl, fun x hx => Function.update_of_ne hx _ _, ?_,
      fun _ _ _ => rfl⟩ ⟨?_, ?_, hI.valid.inner, hI.valid.lists⟩ ?_
    · intro it hit
      simp only [Function.update_self] at hit
      obtain ⟨y, hy, e⟩ := hr it hit
      exact Or.inl ⟨y, hy, e.symm⟩
    · intro x it hit
      simp only at hit ⊢
      by_cases hx : x = c
      · subst hx
        rw [Function.update_self] at hit
        obtain ⟨y, hy, e⟩ := hr it hit
        rw [e]; exact hI.valid.refs x y hy
      · rw [Function.update_of_ne hx] at hit; exact hI.valid.refs x it hit
    · intro x
      simp only
      by_cases hx : x = c
      · subst hx; rw [Function.update_self]; exact hk
      · rw [Function.update_of_ne hx]; exact hI.valid.keys x
    · rintro k ⟨it, hit, e, he, hk⟩
      simp only [Function.update_self] at hit he
      obtain ⟨y, hy, e'⟩ := hr it hit
      rw [e'] at he
      exact Or.inl ⟨y, hy, e, he, hk⟩
  | inPlace k l hk =>
    refine ⟨⟨⟨hI.valid.refs, hI.valid.keys, hI.valid.inner, hI.valid.lists⟩, hI.apart, hI.lists⟩, ?_⟩
    intro x hx
    refine view_congr (by rfl) (fun _ _ => by rfl) ?_
    intro k' hk'
    refine Function.update_of_ne ?_ _ _
    rintro rfl
    exact hI.lists x hx k' hk hk'
  | iadd other ho =>
    obtain ⟨s1, s2⟩ := iaddItems_set none c (h.ds other).items h
    refine iso_of_set hI s1 (s2 hI.valid) ?_
    rintro k ⟨it, hit, e, he, hk⟩
    left
    refine iaddItems_refs (fun v => ∀ k, v = .list k → HoldsList h c k) none c (h.ds other).items h
      (fun x hx => hI.valid.refs other x hx) ?_ ?_ it hit e he k hk
    · intro it hit e he k hk; exact ⟨it, hit, e, he, hk⟩
    · intro x hx e he k hk; exact absurd ⟨x, hx, e, he, hk⟩ (ho k)

theorem updates_isolated {h h' : Heap} {c : ℕ} (hI : Isolated h c) (u : Updates c h h') :
    Isolated h' c ∧ ∀ x, x ≠ c → h'.view x = h.view x := by
  induction u with
  | refl => exact ⟨hI, fun _ _ => rfl⟩
  | tail _ hu ih =>
    obtain ⟨i1, i2⟩ := ih
    obtain ⟨j1, j2⟩ := update_isolated i1 hu
    exact ⟨j1, fun x hx => (j2 x hx).trans (i2 x hx)⟩

/-! ## Sums -/

theorem add_fst (h : Heap) (a b : ℕ) :
    (h.add a b).1 = ((h.copy a).1.iadd (h.copy a).2 b none).1 := by
  unfold Heap.add
  simp only
  cases hr : (h.copy a).1.iadd (h.copy a).2 b none with
  | mk h2 oe => cases oe <;> rfl

theorem add_isolated {h : Heap} (hv : Valid h) (a : ℕ) {b : ℕ} (hb : b < h.nextDs)
    (ho : OnlyTuples h b) : Isolated (h.add a b).1 h.nextDs := by
  rw [add_fst]
  refine (update_isolated (copy_isolated hv a) (Update.iadd _ b ?_)).1
  rintro k ⟨it, hit, e, he, hk⟩
  simp only [Heap.copy] at hit he
  rw [Function.update_of_ne (by omega)] at hit
  have := hv.refs b it hit
  rw [if_neg (by omega)] at he
  exact ho k ⟨it, hit, e, he, hk⟩

/-- Nothing but the dataset and its own dicts changes. -/
theorem iadd_others {h : Heap} (hv : Valid h) (a b : ℕ) {x : ℕ} (hx : x ≠ a) (hap : Apart h a x) :
    (h.iadd a b none).1.view x = h.view x := by
  obtain ⟨s1, _⟩ := iaddItems_set none a (h.ds b).items h
  refine view_congr (s1.others x hx) ?_ (fun k _ => by rw [Heap.iadd, s1.lists])
  intro it hit
  exact s1.dicts it.2 (hv.refs x it hit) (fun it0 h0 => hap it0 h0 it hit)

theorem add_others {h : Heap} (hv : Valid h) (a b : ℕ) {x : ℕ} (hx : x < h.nextDs) :
    (h.add a b).1.view x = h.view x := by
  have hx' : x ≠ h.nextDs := by omega
  rw [add_fst, ← view_copy_other hv a hx']
  exact iadd_others (copy_valid hv a) _ b hx' ((copy_isolated hv a).apart x hx')

/-- `a += b` is the sum of the values, if `a` shares no dict with `b` or itself. -/
theorem iadd_sim {h : Heap} (hv : Valid h) {a b : ℕ} (hn : NoAlias h a) (hap : Apart h a b) :
    ((h.iadd a b none).1.view a, (h.iadd a b none).2) = DS.iadd none (h.view a) (h.view b).items :=
  iaddItems_sim none a (h.ds b).items h hv hn (fun x hx => hv.refs b x hx)
    (fun x hx it hit => hap it hit x hx)

/-- `a + b` is the sum of the values. -/
theorem add_sim {h : Heap} (hv : Valid h) {a b : ℕ} (hb : b < h.nextDs) (hn : NoAlias h a) :
    (match (h.add a b).2 with
      | .ok c => .ok ((h.add a b).1.view c)
      | .error e => .error e) = DS.add (h.view a) (h.view b) := by
  have hb' : b ≠ h.nextDs := by omega
  have h1 := iadd_sim (copy_valid hv a) (copy_alias hn) ((copy_isolated hv a).apart b hb')
  rw [view_copy_self, view_copy_other hv a hb'] at h1
  unfold DS.add
  rw [← h1]
  unfold Heap.add
  simp only
  cases hr : (h.copy a).1.iadd (h.copy a).2 b none with
  | mk h2 oe => cases oe <;> rfl

end SegEval
