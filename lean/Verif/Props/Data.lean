import Verif.Lemmas.DataHistory
import Verif.Props.Agreement

/-!
# C51–C54: datasets
-/

namespace SegEval.Props

open SegEval Spec

/-- Item and coder names for the examples. -/
def nX : Name := ['x']
def nY : Name := ['y']
def nM : Name := ['m']
def nN : Name := ['n']

/-- Memory with two datasets that share nothing: `{x: {m: (2, 3)}}` and `{y: {n: [1, 4]}}`. -/
def exHeap : Heap where
  ds d := if d = 0 then { items := [(nX, 0)], coders := {nM} }
    else if d = 1 then { items := [(nY, 1)], coders := {nN} } else {}
  dicts r := if r = 0 then [(nM, .tuple [2, 3])] else if r = 1 then [(nN, .list 0)] else []
  lists k := if k = 0 then [1, 4] else []
  nextDs := 2
  nextDict := 2
  nextList := 1

theorem exHeap_valid : Valid exHeap := by
  constructor
  · intro d it hit
    by_cases h0 : d = 0
    · subst h0; revert hit; simp [exHeap]; rintro rfl; simp
    · by_cases h1 : d = 1
      · subst h1; revert hit; simp [exHeap]; rintro rfl; simp
      · simp [exHeap, h0, h1] at hit
  · intro d
    by_cases h0 : d = 0
    · subst h0; simp [exHeap]
    · by_cases h1 : d = 1
      · subst h1; simp [exHeap]
      · simp [exHeap, h0, h1]
  · intro r
    by_cases h0 : r = 0
    · subst h0; simp [exHeap]
    · by_cases h1 : r = 1
      · subst h1; simp [exHeap]
      · simp [exHeap, h0, h1]
  · intro r c hc k hk
    by_cases h0 : r = 0
    · subst h0; simp [exHeap] at hc; subst hc; cases hk
    · by_cases h1 : r = 1
      · subst h1; simp [exHeap] at hc; subst hc; cases hk; simp [exHeap]
      · simp [exHeap, h0, h1] at hc

/-! ## C51 -/

/-- C51: after any history of constructing datasets from dict literals, `+=` (even if it raised),
`+` and `copy`, the coder set of every dataset is the set of coders in its items.  Partial: it is
false for loaded datasets, after item assignment, and for datasets constructed from a dict that is
used elsewhere; see `C51_loaded_json`, `C51_loaded_tsv`, `C51_assignment` and `C51_shared`. -/
theorem C51_history_partial {h : Heap} (hh : History h) (d : ℕ) :
    CodersAre (h.view d).items (h.view d).coders :=
  (SegEval.History.tidy hh).coders d

/-- C51 refuted: a dataset loaded from JSON never has coders, whatever its items. -/
theorem C51_loaded_json {doc : Option JVal} {d : DS (List JVal)} (h : inputJson doc = .ok d) :
    d.coders = ∅ := by
  have key : ∀ (l : List (Name × JVal)) (d d' : DS (List JVal)), d.coders = ∅ →
      readItems l d = .ok d' → d'.coders = ∅ := by
    intro l
    induction l with
    | nil => intro d d' hd h; cases h; exact hd
    | cons e es ih =>
      intro d d' hd h
      unfold readItems at h
      rw [forLoop] at h
      cases hv : e.2 with
      | obj cs =>
        rw [hv] at h
        simp only at h
        cases hc : readCodings cs [] with
        | error e => rw [hc] at h; cases h
        | ok codings => rw [hc] at h; exact ih (d.setItem e.1 codings) d' hd h
      | null => rw [hv] at h; cases h
      | bool b => rw [hv] at h; cases h
      | num n => rw [hv] at h; cases h
      | float r => rw [hv] at h; cases h
      | str s => rw [hv] at h; cases h
      | arr l => rw [hv] at h; cases h
  unfold inputJson at h
  split at h
  · cases h
  · split at h
    · cases h
    · cases h
    · split at h
      · cases h
      · split at h
        · split at h
          · split at h
            · split at h
              · cases h
              · split at h
                · exact key _ _ _ rfl h
                · cases h
            · cases h
          · cases h
        · cases h

/-- C51 refuted: nor does one loaded from TSV. -/
theorem C51_loaded_tsv {parse : Name → Option ℤ} {item : Name} {rows : List (List Name)}
    {d : DS (List ℤ)} (h : inputTsv parse item rows = .ok d) : d.coders = ∅ := by
  unfold inputTsv at h
  split at h
  · cases h
  · cases h; rfl

/-- C51 refuted: agreement raises for every dataset without coders, such as a loaded one. -/
theorem C51_unusable (o : ClassOrder Name) (cmp : Compare) (kw : BoundaryFormat) (rp : Bool)
    (items : Items) (fmt : BoundaryFormat) :
    actualAgreement o cmp kw (.dataset ⟨items, ∅, fmt⟩) = .error .zeroDivisionError ∧
    (∃ e, fleissPi o cmp kw rp (.dataset ⟨items, ∅, fmt⟩) = .error e) ∧
    ∃ e, fleissKappa o cmp kw rp (.dataset ⟨items, ∅, fmt⟩) = .error e := by
  have ho : o.order [] (∅ : Finset Name) = [] := by
    apply List.eq_nil_iff_forall_not_mem.2
    intro x hx
    exact absurd ((o.mem _ _ _).1 hx) (Finset.notMem_empty x)
  refine ⟨?_, ?_, ?_⟩
  · unfold actualAgreement
    simp only [getCoders, ho]
    rfl
  · unfold fleissPi
    simp only [getCoders, ho]
    split
    · exact ⟨_, rfl⟩
    · exact ⟨_, rfl⟩
  · unfold fleissKappa
    simp only [getCoders, ho]
    split
    · exact ⟨_, rfl⟩
    · split
      · exact ⟨_, rfl⟩
      · exact ⟨_, rfl⟩

/-- A loaded document with two coders: no coder is known. -/
example : (inputJson (some (.obj [(kSegType, .str kLinear),
      (kItems, .obj [(nX, .obj [(nM, .arr [.num 2, .num 3]), (nN, .arr [.num 5])])])]))).toOption.map
        (fun d => (dictKeys d.items, d.coders)) = some ([nX], ∅) := by
  decide +kernel

/-- C51 refuted: `d['x']['m'] = (2, 3)` on a new dataset adds a coding but no coder. -/
theorem C51_assignment : (((DS.init [] [] none .mass : DS (List ℤ)).setCoding nX nM [2, 3])).coders = ∅ ∧
    Has ((DS.init [] [] none .mass : DS (List ℤ)).setCoding nX nM [2, 3]).items nX nM [2, 3] :=
  ⟨rfl, _, rfl, rfl⟩

/-- Two datasets constructed from one dict object `{x: {m: (2, 3)}}`, and a third one
`{x: {n: (5,)}}`. -/
def exShared : Heap where
  ds d := if d ≤ 1 then { items := [(nX, 0)], coders := {nM} }
    else if d = 2 then { items := [(nX, 1)], coders := {nN} } else {}
  dicts r := if r = 0 then [(nM, .tuple [2, 3])] else if r = 1 then [(nN, .tuple [5])] else []
  lists _ := []
  nextDs := 3
  nextDict := 2
  nextList := 0

/-- C51 refuted: the first two datasets of `exShared` are what `Dataset(source)` yields twice; adding
the third to the first adds coder `n` to the items of the second, but not to its coder set. -/
theorem C51_shared :
    let h0 : Heap := { exShared with ds := fun d => if d = 0 then exShared.ds 2 else {}, nextDs := 1 }
    let h1 := (h0.newDataset [(nX, 0)] [] none .mass).1
    let h2 := (h1.newDataset [(nX, 0)] [] none .mass).1
    let h3 := (h2.iadd 1 0 none).1
    ((h2.ds 1).items, (h2.ds 2).items) = ([(nX, 0)], [(nX, 0)]) ∧
    (h3.view 2).items = [(nX, [(nM, [2, 3]), (nN, [5])])] ∧ (h3.view 2).coders = {nM} := by
  decide +kernel

/-- A history: construct two datasets and add them. -/
example : ∃ h, History h ∧ h.nextDs = 3 ∧ (h.view 2).items = [(nX, [(nM, [2, 3]), (nN, [5])])] ∧
    (h.view 2).coders = {nM, nN} := by
  refine ⟨_, .add 0 1 (by decide) (.construct [(nX, [(nN, .tuple [5])])] [] none .mass
    ⟨by decide, by decide⟩ (by simp) (.construct [(nX, [(nM, .tuple [2, 3])])] [] none .mass
    ⟨by decide, by decide⟩ (by simp) (.start (fun _ => []) 0))), ?_, ?_, ?_⟩ <;> decide +kernel

/-! ## C52 -/

theorem nodup_clash {V : Type _} {a b : List (Name × List (Name × V))} (ha : IsDict2 a)
    (hb : IsDict2 b) : ((flat a ++ pflat none b).map Prod.fst).Nodup ↔ ¬ Clash a b := by
  have hp : pflat none b = flat b := by
    unfold pflat
    congr 1
    have : (fun it : Name × List (Name × V) => (DS.prefixed none it.1, it.2)) = id := rfl
    rw [this, List.map_id]
  rw [hp, List.map_append, List.nodup_append]
  constructor
  · rintro ⟨_, _, h⟩ ⟨l, c, v, v', h1, h2⟩
    exact h _ ((mem_flat_keys ha).2 ⟨v, h1⟩) _ ((mem_flat_keys hb).2 ⟨v', h2⟩) rfl
  · intro h
    refine ⟨flat_nodup ha, flat_nodup hb, ?_⟩
    rintro ⟨l, c⟩ hx y hy rfl
    obtain ⟨v, h1⟩ := (mem_flat_keys ha).1 hx
    obtain ⟨v', h2⟩ := (mem_flat_keys hb).1 hy
    exact h ⟨l, c, v, v', h1, h2⟩

/-- C52 for values: adding succeeds exactly if no item has a coder in both, and then yields exactly
the codings and items of both and adds the coders; otherwise DataIOError is raised. -/
theorem C52_values {V : Type _} (a b : DS V) (ha : IsDict2 a.items) (hb : IsDict2 b.items) :
    ((DS.iadd none a b.items).2 = none ↔ ¬ Clash a.items b.items) ∧
    ((DS.iadd none a b.items).2 ≠ none → (DS.iadd none a b.items).2 = some .dataIOError) ∧
    ((DS.iadd none a b.items).2 = none → ∀ c, (DS.iadd none a b.items).1 = c →
      (∀ l m v, Has c.items l m v ↔ Has a.items l m v ∨ Has b.items l m v) ∧
      (∀ l, HasItem c.items l ↔ HasItem a.items l ∨ HasItem b.items l) ∧
      (∀ m, m ∈ c.coders ↔ m ∈ a.coders ∨ ∃ l v, Has b.items l m v) ∧
      c.properties = a.properties ∧ c.boundaryTypes = a.boundaryTypes ∧
      c.boundaryFormat = a.boundaryFormat) := by
  have hp : pflat none b.items = flat b.items := by
    unfold pflat
    congr 1
    have : (fun it : Name × List (Name × V) => (DS.prefixed none it.1, it.2)) = id := rfl
    rw [this, List.map_id]
  have ho := iadd_outcome none a ha b.items
  refine ⟨(iadd_ok_iff none a ha b.items).trans (nodup_clash ha hb), ?_, ?_⟩
  · intro h
    rcases ho with ⟨h1, _⟩ | ⟨h1, _⟩
    · exact absurd h1 h
    · exact h1
  · rintro h c rfl
    rcases ho with ⟨_, h1, _⟩ | ⟨h1, _⟩
    · refine ⟨?_, ?_, ?_, h1.properties, h1.types, h1.format⟩
      · intro l m v
        rw [h1.has ha, hp, mem_flat hb]
      · intro l
        rw [iadd_items none a b.items h l]
        refine or_congr Iff.rfl ?_
        constructor
        · rintro ⟨it, hit, rfl⟩; exact ⟨it.2, dictGet_of_mem hb.1 hit⟩
        · rintro ⟨cs, hcs⟩; exact ⟨_, dictGet_mem hcs, rfl⟩
      · intro m
        rw [h1.coders, hp]
        simp only [List.not_mem_nil, or_false]
        refine or_congr Iff.rfl ?_
        constructor
        · intro hm
          obtain ⟨⟨⟨l, m'⟩, v⟩, hx, e⟩ := List.mem_map.1 hm
          simp only at e
          subst e
          exact ⟨l, v, (mem_flat hb).1 hx⟩
        · rintro ⟨l, v, hv⟩
          exact List.mem_map.2 ⟨_, (mem_flat hb).2 hv, rfl⟩
    · rw [h1] at h; cases h

/-- C52: `a + b` raises DataIOError exactly if some item has the same coder in both; otherwise it
is a new dataset with exactly the codings, items and coders of both, and the attributes of `a`.
Partial: assumes no two items of `a` are the same dict object, see `C52_refuted`. -/
theorem C52_add_partial {h : Heap} (hv : Valid h) {a b : ℕ} (hb : b < h.nextDs) (hn : NoAlias h a) :
    ((h.add a b).2 = .error .dataIOError ↔ Clash (h.view a).items (h.view b).items) ∧
    (∀ e, (h.add a b).2 = .error e → e = .dataIOError) ∧
    ∀ c, (h.add a b).2 = .ok c →
      (∀ l m v, Has ((h.add a b).1.view c).items l m v ↔
        Has (h.view a).items l m v ∨ Has (h.view b).items l m v) ∧
      (∀ l, HasItem ((h.add a b).1.view c).items l ↔
        HasItem (h.view a).items l ∨ HasItem (h.view b).items l) ∧
      (∀ m, m ∈ ((h.add a b).1.view c).coders ↔
        m ∈ (h.view a).coders ∨ ∃ l v, Has (h.view b).items l m v) ∧
      ((h.add a b).1.view c).properties = (h.view a).properties ∧
      ((h.add a b).1.view c).boundaryTypes = (h.view a).boundaryTypes ∧
      ((h.add a b).1.view c).boundaryFormat = (h.view a).boundaryFormat := by
  obtain ⟨v1, v2, v3⟩ := C52_values (h.view a) (h.view b) (view_dict hv a) (view_dict hv b)
  have hs := add_sim hv hb hn
  unfold DS.add at hs
  cases hr : DS.iadd none (h.view a) (h.view b).items with
  | mk d oe =>
    rw [hr] at hs v1 v2 v3
    cases oe with
    | none =>
      simp only at hs
      cases hadd : (h.add a b).2 with
      | error e => rw [hadd] at hs; cases hs
      | ok c =>
        rw [hadd] at hs
        simp only [Except.ok.injEq] at hs
        refine ⟨⟨fun h' => (nomatch h'), fun h' => absurd h' (v1.1 rfl)⟩, fun e he => (nomatch he), ?_⟩
        intro c' hc'
        cases hc'
        exact v3 rfl _ hs.symm
    | some e =>
      simp only at hs
      have he : e = .dataIOError := by
        have := v2 (by simp)
        exact Option.some.inj this
      subst he
      cases hadd : (h.add a b).2 with
      | ok c => rw [hadd] at hs; cases hs
      | error e =>
        rw [hadd] at hs
        simp only [Except.error.injEq] at hs
        subst hs
        refine ⟨⟨fun _ => ?_, fun _ => rfl⟩, fun e he => (Except.error.inj he).symm, fun c hc => by cases hc⟩
        by_contra hno
        have := v1.2 hno
        cases this

/-- C52: the same for `a += b`.  Partial: assumes that no two items of `a`, and no items of `a` and
`b`, are the same dict object. -/
theorem C52_iadd_partial {h : Heap} (hv : Valid h) {a b : ℕ} (hn : NoAlias h a) (hap : Apart h a b) :
    ((h.iadd a b none).2 = some .dataIOError ↔ Clash (h.view a).items (h.view b).items) ∧
    ((h.iadd a b none).2 ≠ some .dataIOError → (h.iadd a b none).2 = none ∧
      (∀ l m v, Has ((h.iadd a b none).1.view a).items l m v ↔
        Has (h.view a).items l m v ∨ Has (h.view b).items l m v) ∧
      (∀ l, HasItem ((h.iadd a b none).1.view a).items l ↔
        HasItem (h.view a).items l ∨ HasItem (h.view b).items l) ∧
      (∀ m, m ∈ ((h.iadd a b none).1.view a).coders ↔
        m ∈ (h.view a).coders ∨ ∃ l v, Has (h.view b).items l m v)) := by
  obtain ⟨v1, v2, v3⟩ := C52_values (h.view a) (h.view b) (view_dict hv a) (view_dict hv b)
  have hs := iadd_sim hv hn hap
  rw [← hs] at v1 v2 v3
  simp only at v1 v2 v3
  have hcase : (h.iadd a b none).2 = none ∨ (h.iadd a b none).2 = some .dataIOError := by
    by_cases h0 : (h.iadd a b none).2 = none
    · exact Or.inl h0
    · exact Or.inr (v2 h0)
  refine ⟨?_, ?_⟩
  · constructor
    · intro he
      by_contra hno
      rw [v1.2 hno] at he
      cases he
    · intro hc
      rcases hcase with h0 | h0
      · exact absurd hc (v1.1 h0)
      · exact h0
  · intro hne
    rcases hcase with h0 | h0
    · obtain ⟨w1, w2, w3, _⟩ := v3 h0 _ rfl
      exact ⟨h0, w1, w2, w3⟩
    · exact absurd h0 hne

/-- The sum of the two datasets, and a clash. -/
example : (exHeap.add 0 1).2 = .ok 2 ∧
    ((exHeap.add 0 1).1.view 2).items = [(nX, [(nM, [2, 3])]), (nY, [(nN, [1, 4])])] ∧
    (exHeap.add 1 1).2 = .error .dataIOError ∧ Valid exHeap ∧ NoAlias exHeap 0 ∧ Apart exHeap 0 1 := by
  refine ⟨by decide +kernel, by decide +kernel, by decide +kernel, exHeap_valid, ?_, ?_⟩
  · unfold NoAlias; decide +kernel
  · unfold Apart; decide +kernel

/-- A dataset whose items `x` and `y` are one dict object, and one with a new coder for both. -/
def exAlias : Heap where
  ds d := if d = 0 then { items := [(nX, 0), (nY, 0)], coders := {nM} }
    else if d = 1 then { items := [(nX, 1), (nY, 2)], coders := {nN} } else {}
  dicts r := if r = 0 then [(nM, .tuple [2, 3])] else if r = 1 then [(nN, .tuple [1, 4])]
    else if r = 2 then [(nN, .tuple [5])] else []
  lists _ := []
  nextDs := 2
  nextDict := 3
  nextList := 0

/-- C52 refuted: the copy of `a` made by `+` still has one dict object for `x` and `y`, so the coder
added to `x` shows up in `y` and the sum raises, though no item has the same coder in both. -/
theorem C52_refuted : (exAlias.add 0 1).2 = .error .dataIOError ∧
    (exAlias.view 0).items = [(nX, [(nM, [2, 3])]), (nY, [(nM, [2, 3])])] ∧
    (exAlias.view 1).items = [(nX, [(nN, [1, 4])]), (nY, [(nN, [5])])] := by
  decide +kernel

/-! ## C53 -/

/-- C53: `c = a.copy()` is equal to `a` and leaves every dataset as it was, and no later changes
through `c` ever show in another dataset. -/
theorem C53_copy {h : Heap} (hv : Valid h) (a : ℕ) :
    (h.copy a).1.view (h.copy a).2 = h.view a ∧
    ∀ h', Updates (h.copy a).2 (h.copy a).1 h' → ∀ x < h.nextDs, h'.view x = h.view x := by
  refine ⟨view_copy_self a, ?_⟩
  intro h' hu x hx
  have hx' : x ≠ (h.copy a).2 := by
    have : (h.copy a).2 = h.nextDs := rfl
    omega
  rw [(updates_isolated (copy_isolated hv a) hu).2 x hx']
  exact view_copy_other hv a hx'

/-- C53: `a + b` leaves every dataset as it was, whether it raises or not. -/
theorem C53_add {h : Heap} (hv : Valid h) (a b : ℕ) {x : ℕ} (hx : x < h.nextDs) :
    (h.add a b).1.view x = h.view x :=
  add_others hv a b hx

/-- C53: if the codings of `b` are tuples, no later changes through `c = a + b` ever show in another
dataset.  Partial: false if `b` has lists, see `C53_refuted`. -/
theorem C53_add_later_partial {h : Heap} (hv : Valid h) {a b c : ℕ} (hb : b < h.nextDs)
    (ho : OnlyTuples h b) (hc : (h.add a b).2 = .ok c) :
    ∀ h', Updates c (h.add a b).1 h' → ∀ x < h.nextDs, h'.view x = h.view x := by
  intro h' hu x hx
  have hcc : c = h.nextDs := by
    unfold Heap.add at hc
    simp only at hc
    cases hr : (h.copy a).1.iadd (h.copy a).2 b none with
    | mk h2 oe =>
      rw [hr] at hc
      cases oe with
      | none => exact (Except.ok.inj hc).symm
      | some e => cases hc
  subst hcc
  rw [(updates_isolated (add_isolated hv a hb ho) hu).2 x (by omega)]
  exact add_others hv a b hx

/-- The changes considered include changing a list that the copy holds. -/
example : ∃ h', Updates (exHeap.copy 1).2 (exHeap.copy 1).1 h' ∧
    (h'.view 2).items = [(nY, [(nN, [9])])] ∧ (h'.view 1).items = [(nY, [(nN, [1, 4])])] := by
  refine ⟨_, .single (.inPlace (exHeap.copy 1).1 1 [9] ⟨(nY, 3), ?_, (nN, .list 1), ?_, rfl⟩), ?_, ?_⟩ <;>
    decide +kernel

/-- C53 refuted: after `c = a + b`, changing in place the list `c['y']['n']` changes `b`. -/
theorem C53_refuted :
    (exHeap.add 0 1).2 = .ok 2 ∧ Update 2 (exHeap.add 0 1).1 ((exHeap.add 0 1).1.setList 0 [9]) ∧
    (exHeap.view 1).items = [(nY, [(nN, [1, 4])])] ∧
    (((exHeap.add 0 1).1.setList 0 [9]).view 1).items = [(nY, [(nN, [9])])] := by
  refine ⟨by decide +kernel, .inPlace _ 0 [9] ⟨(nY, 4), ?_, (nN, .list 0), ?_, rfl⟩, ?_, ?_⟩ <;>
    decide +kernel

/-! ## C54 -/

/-- C54: `a += b`, whether it raises or not, leaves alone all datasets that share no dict object
with `a`.  Partial: a dataset constructed from the same dict changes too, see `C54_shared`. -/
theorem C54_others_partial {h : Heap} (hv : Valid h) (a b : ℕ) {x : ℕ} (hx : x ≠ a)
    (hap : Apart h a x) : (h.iadd a b none).1.view x = h.view x :=
  iadd_others hv a b hx hap

/-- The codings in the order of a loop over items and coders. -/
def listed {V : Type _} (items : List (Name × List (Name × V))) : List ((Name × Name) × V) :=
  items.flatMap (fun it => it.2.map (fun c => ((it.1, c.1), c.2)))

theorem listed_eq {V : Type _} (items : List (Name × List (Name × V))) :
    listed items = pflat none items := by
  unfold pflat listed flat
  rw [List.flatMap_map]
  rfl

/-- C54: when `a += b` raises, it has met a coding of `b` that is taken in `a`, and `a` has gained
exactly the codings of `b` listed before it, and their coders.  Partial: `a` is not left unchanged,
see `C54_refuted`. -/
theorem C54_failure_partial {h : Heap} (hv : Valid h) {a b : ℕ} (hn : NoAlias h a) (hap : Apart h a b)
    (hr : (h.iadd a b none).2 ≠ none) :
    ∃ done x rest, listed (h.view b).items = done ++ x :: rest ∧
      (∃ v, Has (h.view a).items x.1.1 x.1.2 v) ∧
      (∀ y ∈ done, ∀ v, ¬ Has (h.view a).items y.1.1 y.1.2 v) ∧
      (∀ l m v, Has ((h.iadd a b none).1.view a).items l m v ↔
        Has (h.view a).items l m v ∨ ((l, m), v) ∈ done) ∧
      (∀ m, m ∈ ((h.iadd a b none).1.view a).coders ↔
        m ∈ (h.view a).coders ∨ m = x.1.2 ∨ ∃ y ∈ done, m = y.1.2) := by
  have hda := view_dict hv a
  have hdb := view_dict hv b
  have hs := iadd_sim hv hn hap
  have ho := iadd_outcome none (h.view a) hda (h.view b).items
  rw [← hs] at ho
  have hflat : pflat none (h.view b).items = flat (h.view b).items := (listed_eq _).symm
  rcases ho with ⟨h1, _⟩ | ⟨_, done, x, rest, hl, had, hnd, hx⟩
  · exact absurd h1 hr
  · refine ⟨done, x, rest, (listed_eq _).trans hl, ?_, ?_, fun l m v => had.has hda, ?_⟩
    · rw [List.map_append, List.mem_append] at hx
      rcases hx with hx | hx
      · exact (mem_flat_keys hda).1 hx
      · have hnb : ((done ++ x :: rest).map Prod.fst).Nodup := by
          rw [← hl, hflat]; exact flat_nodup hdb
        rw [List.map_append, List.map_cons, List.nodup_append] at hnb
        exact absurd rfl (hnb.2.2 _ hx _ (List.mem_cons_self ..))
    · intro y hy v hv'
      rw [List.map_append, List.nodup_append] at hnd
      exact hnd.2.2 _ ((mem_flat_keys hda).2 ⟨v, hv'⟩) _ (List.mem_map_of_mem (f := Prod.fst) hy) rfl
    · intro m
      rw [had.coders]
      refine or_congr Iff.rfl ?_
      rw [or_comm]
      refine or_congr (by simp) ?_
      simp only [List.mem_map]
      exact exists_congr fun y => and_congr Iff.rfl eq_comm

/-- C54: `a += a` changes nothing, and raises unless `a` has no codings. -/
theorem C54_self_partial {h : Heap} (hv : Valid h) (a : ℕ)
    (hc : CodersAre (h.view a).items (h.view a).coders) :
    (∀ x, (h.iadd a a none).1.view x = h.view x) ∧
    ((h.iadd a a none).2 = none ↔ ∀ l c v, ¬ Has (h.view a).items l c v) :=
  ⟨(iadd_self hv a hc).1, (iadd_self hv a hc).2.1⟩

/-- C52 and C54 after any history of constructing from dict literals, `+=`, `+` and `copy`: no
assumption about sharing is needed for distinct datasets. -/
theorem C54_history_partial {h : Heap} (hh : History h) {a b : ℕ} (hab : a ≠ b) :
    ((h.iadd a b none).2 = some .dataIOError ↔ Clash (h.view a).items (h.view b).items) ∧
    (∀ x, x ≠ a → (h.iadd a b none).1.view x = h.view x) ∧
    ((h.iadd a b none).2 ≠ some .dataIOError →
      ∀ l m v, Has ((h.iadd a b none).1.view a).items l m v ↔
        Has (h.view a).items l m v ∨ Has (h.view b).items l m v) := by
  have t := SegEval.History.tidy hh
  have c := C52_iadd_partial t.valid (t.noAlias a) (t.apart a b hab)
  exact ⟨c.1, fun x hx => iadd_others t.valid a b hx (t.apart a x (Ne.symm hx)), fun h0 => (c.2 h0).2.1⟩

/-- A history after which adding distinct datasets, that share nothing, raises. -/
example : ∃ h, History h ∧ Valid h ∧ NoAlias h 0 ∧ Apart h 0 1 ∧ (h.iadd 0 1 none).2 ≠ none ∧
    CodersAre (h.view 0).items (h.view 0).coders ∧ h.nextDs = 2 := by
  have hh : History _ := .construct [(nY, [(nN, .tuple [5])]), (nX, [(nM, .tuple [4])])] [] none .mass
    ⟨by decide, by decide⟩ (by simp) (.construct [(nX, [(nM, .tuple [2, 3])])] [] none .mass
    ⟨by decide, by decide⟩ (by simp) (.start (fun _ => []) 0))
  have t := SegEval.History.tidy hh
  exact ⟨_, hh, t.valid, t.noAlias 0, t.apart 0 1 (by decide), by decide +kernel, t.coders 0,
    by decide +kernel⟩

/-- Two datasets `{x: {m: (2, 3)}}` and `{y: {n: (5,)}, x: {m: (4,)}}` that share nothing. -/
def exDup : Heap where
  ds d := if d = 0 then { items := [(nX, 0)], coders := {nM} }
    else if d = 1 then { items := [(nY, 1), (nX, 2)], coders := {nM, nN} } else {}
  dicts r := if r = 0 then [(nM, .tuple [2, 3])] else if r = 1 then [(nN, .tuple [5])]
    else if r = 2 then [(nM, .tuple [4])] else []
  lists _ := []
  nextDs := 2
  nextDict := 3
  nextList := 0

/-- C54 refuted: the sum raises, and the first dataset has kept the coding of `y`. -/
theorem C54_refuted : (exDup.iadd 0 1 none).2 = some .dataIOError ∧
    (exDup.view 0).items = [(nX, [(nM, [2, 3])])] ∧
    ((exDup.iadd 0 1 none).1.view 0).items = [(nX, [(nM, [2, 3])]), (nY, [(nN, [5])])] := by
  decide +kernel

/-- C54 refuted: when two datasets were constructed from one dict object, adding to the first
changes the second. -/
theorem C54_shared : (exShared.iadd 0 2 none).2 = none ∧
    (exShared.view 1).items = [(nX, [(nM, [2, 3])])] ∧
    ((exShared.iadd 0 2 none).1.view 1).items = [(nX, [(nM, [2, 3]), (nN, [5])])] := by
  decide +kernel

end SegEval.Props
