import Verif.Spec.Names
import Verif.Lemmas.Compute
import Verif.Lemmas.AgreementValue
import Verif.Lemmas.JsonLoad

namespace SegEval

open Spec

theorem intRepr_inj {m n : ℤ} (h : intRepr m = intRepr n) : m = n := by
  have h1 : JText ⟨fun r => r⟩ (intRepr m) (.num m) := .int (intLit_repr m)
  have h2 : JText ⟨fun r => r⟩ (intRepr m) (.num n) := by rw [h]; exact .int (intLit_repr n)
  have := jdoc_unique (jdoc_of_text h1) (jdoc_of_text h2)
  cases this
  rfl

theorem dictGet_rename {κ κ' α : Type _} [DecidableEq κ] [DecidableEq κ'] (φ : κ → κ') {d : List (κ × α)} {k : κ}
    (h : ∀ e ∈ d, φ e.1 = φ k → e.1 = k) :
    dictGet (d.map (fun e => (φ e.1, e.2))) (φ k) = dictGet d k := by
  induction d with
  | nil => rfl
  | cons e es ih =>
    obtain ⟨k0, v⟩ := e
    have ih' := ih (fun e he => h e (List.mem_cons_of_mem _ he))
    simp only [List.map_cons, dictGet]
    by_cases hk : k0 = k
    · rw [if_pos (by rw [hk]), if_pos hk]
    · rw [if_neg (fun hh => hk (h _ (List.mem_cons_self) hh)), if_neg hk, ih']

/-- No two coders of an item read the same. -/
theorem noClash_inj {a : ItemsK} (h : NoClash a) {it : PyKey × CodingsK} (hi : it ∈ a) {x y : PyKey}
    (hx : x ∈ dictKeys it.2) (hy : y ∈ dictKeys it.2) (hxy : x.toStr = y.toStr) : x = y := by
  cases x with
  | int m =>
    cases y with
    | int n => rw [intRepr_inj hxy]
    | str s =>
      have : s = intRepr m := hxy.symm
      subst this
      exact absurd hy (h it hi m hx)
  | str s =>
    cases y with
    | int n =>
      have : s = intRepr n := hxy
      subst this
      exact absurd hx (h it hi n hy)
    | str t => rw [show s = t from hxy]

/-- Codings with all names written as strings. -/
def renamed (cs : CodingsK) : Codings := cs.map (fun c => (c.1.toStr, c.2))

theorem named_eq (a : ItemsK) : named a = a.map (fun it => (it.1.toStr, renamed it.2)) := rfl

theorem renamed_get {a : ItemsK} (h : NoClash a) {it : PyKey × CodingsK} (hi : it ∈ a) {x : PyKey}
    (hx : x ∈ dictKeys it.2) : dictGet (renamed it.2) x.toStr = dictGet it.2 x := by
  refine dictGet_rename PyKey.toStr ?_
  intro e he hh
  exact noClash_inj h hi (List.mem_map.2 ⟨e, he, rfl⟩) hx hh

theorem named_get {a : ItemsK} (h : TextItems a) (l : Name) :
    dictGet (named a) l = (dictGet a (.str l)).map renamed := by
  induction a with
  | nil => rfl
  | cons it rest ih =>
    obtain ⟨k, cs⟩ := it
    obtain ⟨s, hs⟩ := h _ List.mem_cons_self
    have ih' := ih (fun it hi => h it (List.mem_cons_of_mem _ hi))
    simp only at hs
    subst hs
    rw [named_eq] at *
    rw [List.map_cons]
    simp only [dictGet]
    change (if s = l then _ else _) = _
    by_cases hk : s = l
    · rw [if_pos hk, if_pos (by rw [hk])]; rfl
    · rw [if_neg hk, if_neg (fun hh => hk (by cases hh; rfl)), ih']

variable {R : Type _}

theorem pairStep_named (f : Seg → Seg → Py R) (l : Name) (permuted two : Bool) {a b : ItemsK} (ha : NoClash a)
    (hb : NoClash b) {it it' : PyKey × CodingsK} (hi : it ∈ a) (hi' : it' ∈ b) (acc : List (Name × R))
    {p : PyKey × PyKey} (h1 : p.1 ∈ dictKeys it.2) (h2 : p.2 ∈ dictKeys it'.2) :
    pairStepK f (.str l) permuted two it.2 it'.2 acc p =
      pairStep f l permuted two (renamed it.2) (renamed it'.2) acc (p.1.toStr, p.2.toStr) := by
  unfold pairStepK pairStep
  rw [renamed_get ha hi h1, renamed_get hb hi' h2]
  cases dictGet it.2 p.1 with
  | none => rfl
  | some sm =>
    cases dictGet it'.2 p.2 with
    | none => rfl
    | some sn => rfl

theorem labelPairs_named (f : Seg → Seg → Py R) (l : Name) (permuted two : Bool) {a b : ItemsK} (ha : NoClash a)
    (hb : NoClash b) {it it' : PyKey × CodingsK} (hi : it ∈ a) (hi' : it' ∈ b) {ps : List (PyKey × PyKey)}
    (h : ∀ p ∈ ps, p.1 ∈ dictKeys it.2 ∧ p.2 ∈ dictKeys it'.2) :
    labelPairsK f (.str l) permuted two it.2 it'.2 ps =
      labelPairs f l permuted two (renamed it.2) (renamed it'.2) (ps.map (fun p => (p.1.toStr, p.2.toStr))) := by
  unfold labelPairsK labelPairs
  rw [forLoop_map]
  exact forLoop_congr _ _ (fun s p hp => pairStep_named f l permuted two ha hb hi hi' s (h p hp).1 (h p hp).2)

theorem renamed_keys (cs : CodingsK) : dictKeys (renamed cs) = (dictKeys cs).map PyKey.toStr := by
  simp [renamed, dictKeys]

theorem perLabel_named (f : Seg → Seg → Py R) (permuted : Bool) {a : ItemsK} {b : Option ItemsK}
    (ha : NoClash a) (hb : ∀ b' ∈ b, NoClash b') (ta : TextItems a) (tb : ∀ b' ∈ b, TextItems b')
    (acc : List (Name × R)) (l : Name) :
    perLabelK f permuted a b acc (.str l) = perLabel f permuted (named a) (b.map named) acc l := by
  unfold perLabelK perLabel
  cases b with
  | none =>
    simp only [Option.map_none]
    rw [named_get ta]
    cases hg : dictGet a (.str l) with
    | none => rfl
    | some cm =>
      simp only [Option.map_some]
      have hm := dictGet_mem hg
      have hp : ∀ p ∈ combinations2 (dictKeys cm), p.1 ∈ dictKeys cm ∧ p.2 ∈ dictKeys cm := by
        rintro ⟨x, y⟩ hp
        have := (mem_combinations2 _ _ _).1 hp
        exact ⟨this.subset (by simp), this.subset (by simp)⟩
      rw [labelPairs_named f l permuted false ha ha hm hm hp, renamed_keys, combinations2_map]
      rfl
  | some b =>
    simp only [Option.map_some]
    rw [named_get ta, named_get (tb b rfl)]
    cases hg : dictGet a (.str l) with
    | none => rfl
    | some cm =>
      cases hg' : dictGet b (.str l) with
      | none => rfl
      | some cn =>
        simp only [Option.map_some]
        have hm := dictGet_mem hg
        have hm' := dictGet_mem hg'
        have hp : ∀ p ∈ (dictKeys cm).flatMap (fun m => (dictKeys cn).map (fun n => (m, n))),
            p.1 ∈ dictKeys cm ∧ p.2 ∈ dictKeys cn := by
          intro p hp
          simp only [List.mem_flatMap, List.mem_map] at hp
          obtain ⟨m, hm1, n, hn1, rfl⟩ := hp
          exact ⟨hm1, hn1⟩
        rw [labelPairs_named f l permuted true ha (hb b rfl) hm hm' hp, renamed_keys, renamed_keys]
        simp only [List.map_flatMap, List.flatMap_map, List.map_map]
        rfl

theorem mem_labelSetK (a : ItemsK) (b : Option ItemsK) (l : PyKey) :
    l ∈ labelSetK a b ↔ l ∈ dictKeys a ∨ ∃ b', b = some b' ∧ l ∈ dictKeys b' := by
  unfold labelSetK
  refine Iff.trans (foldl_insert_mem (fun x : PyKey => x) _ ∅ l) ?_
  cases b <;> simp

/-- The string of a string key. -/
def strOf : PyKey → Option Name
  | .str s => some s
  | .int _ => none

theorem strOf_eq {k : PyKey} {s : Name} : strOf k = some s ↔ k = .str s := by
  cases k <;> simp [strOf]

/-- The order in which sets of strings are visited, when they are sets of keys. -/
def strOrder (o : ClassOrder PyKey) : ClassOrder Name where
  order site s := (o.order site (s.image PyKey.str)).filterMap strOf
  nodup site s := by
    refine List.Nodup.filterMap ?_ (o.nodup _ _)
    intro x y z hx hy
    rw [Option.mem_def, strOf_eq] at hx hy
    rw [hx, hy]
  mem site s x := by
    simp only [List.mem_filterMap, strOf_eq, exists_eq_right]
    rw [o.mem]
    simp

theorem strOrder_map (o : ClassOrder PyKey) (site : List ℕ) (s : Finset Name) :
    ((strOrder o).order site s).map PyKey.str = o.order site (s.image PyKey.str) := by
  have : ∀ l : List PyKey, (∀ k ∈ l, ∃ n, k = .str n) → (l.filterMap strOf).map PyKey.str = l := by
    intro l
    induction l with
    | nil => intro _; rfl
    | cons k ks ih =>
      intro h
      obtain ⟨n, rfl⟩ := h k List.mem_cons_self
      simp only [List.filterMap_cons, strOf, List.map_cons]
      rw [ih (fun k hk => h k (List.mem_cons_of_mem _ hk))]
  refine this _ ?_
  intro k hk
  rw [o.mem] at hk
  obtain ⟨n, _, rfl⟩ := Finset.mem_image.1 hk
  exact ⟨n, rfl⟩

theorem labelSet_named {a : ItemsK} {b : Option ItemsK} (ta : TextItems a) (tb : ∀ b' ∈ b, TextItems b') :
    labelSetK a b = (labelSet (named a) (b.map named)).image PyKey.str := by
  have key : ∀ {c : ItemsK}, TextItems c → ∀ k, k ∈ dictKeys c ↔ ∃ s, s ∈ dictKeys (named c) ∧ PyKey.str s = k := by
    intro c hc k
    simp only [dictKeys, named, List.map_map, List.mem_map, Function.comp]
    constructor
    · rintro ⟨it, hi, rfl⟩
      obtain ⟨s, hs⟩ := hc it hi
      exact ⟨s, ⟨it, hi, by rw [hs]; rfl⟩, hs.symm⟩
    · rintro ⟨s, ⟨it, hi, h1⟩, rfl⟩
      obtain ⟨s', hs⟩ := hc it hi
      refine ⟨it, hi, ?_⟩
      rw [hs] at h1 ⊢
      rw [← h1]
      rfl
  ext k
  rw [mem_labelSetK, Finset.mem_image]
  simp only [mem_labelSet]
  cases b with
  | none =>
    simp only [Option.map_none, key ta]
    simp
  | some b =>
    simp only [Option.map_some, Option.some.injEq, exists_eq_left', key ta, key (tb b rfl)]
    constructor
    · rintro (⟨s, h, rfl⟩ | ⟨s, h, rfl⟩)
      · exact ⟨s, .inl h, rfl⟩
      · exact ⟨s, .inr h, rfl⟩
    · rintro ⟨s, h | h, rfl⟩
      · exact .inl ⟨s, h, rfl⟩
      · exact .inr ⟨s, h, rfl⟩

theorem pairwise_named (o : ClassOrder PyKey) (f : Seg → Seg → Py R) (permuted : Bool) {a : ItemsK}
    {b : Option ItemsK} (ha : NoClash a) (hb : ∀ b' ∈ b, NoClash b') (ta : TextItems a)
    (tb : ∀ b' ∈ b, TextItems b') :
    computePairwiseValuesK o f permuted a b =
      computePairwiseValues (strOrder o) f permuted (named a) (b.map named) := by
  unfold computePairwiseValuesK computePairwiseValues
  rw [labelSet_named ta tb, ← strOrder_map, forLoop_map]
  exact forLoop_congr _ _ (fun s l _ => perLabel_named f permuted ha hb ta tb s l)

end SegEval
