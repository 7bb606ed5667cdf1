import Verif.Model.Package
import Verif.Lemmas.ML
import Mathlib.Data.List.Infix

/-!
# Lemmas about importing the modules of the package
-/

namespace SegEval.Package

/-! ## Dictionaries and states -/

/-- An attribute of a module. -/
def lookup (st : State) (m : ModName) (x : String) : Option Obj := (dictGet st m).bind (dictGet · x)

theorem dictGet_set {κ α : Type _} [DecidableEq κ] (d : List (κ × α)) (k k' : κ) (v : α) :
    dictGet (dictSet d k v) k' = if k' = k then some v else dictGet d k' := by
  induction d with
  | nil => simp only [dictSet, dictGet, eq_comm]
  | cons e es ih =>
    obtain ⟨k0, v0⟩ := e
    simp only [dictSet]
    by_cases h : k0 = k
    · subst h
      simp only [if_true, dictGet]
      by_cases h' : k0 = k'
      · simp [h']
      · simp [h', Ne.symm h']
    · simp only [h, if_false, dictGet, ih]
      by_cases h' : k0 = k'
      · subst h'; simp [h]
      · simp [h']

theorem lookup_setAttr {st : State} {m : ModName} (h : (dictGet st m).isSome) (x : String) (v : Obj)
    (m' : ModName) (x' : String) :
    lookup (setAttr st m x v) m' x' = if m' = m ∧ x' = x then some v else lookup st m' x' := by
  obtain ⟨ns, hns⟩ := Option.isSome_iff_exists.1 h
  simp only [lookup, setAttr, hns, dictGet_set]
  by_cases h1 : m' = m
  · subst h1
    by_cases h2 : x' = x
    · simp [h2, dictGet_set]
    · simp [h2, dictGet_set, hns]
  · simp [h1]

theorem mem_setAttr (st : State) (m : ModName) (x : String) (v : Obj) (m' : ModName) :
    (dictGet (setAttr st m x v) m').isSome = (dictGet st m').isSome := by
  simp only [setAttr]
  cases h : dictGet st m with
  | none => rfl
  | some ns =>
    simp only [dictGet_set]
    by_cases h1 : m' = m
    · simp [h1, h]
    · simp [h1]

/-! ## What the modules look like once everything is loaded -/

/-- The names that a body binds. -/
def stmtNames : Stmt → List String
  | .define xs => xs
  | .fromImport _ names => names.map Prod.snd

/-- The names that the body of a module binds. -/
def bound (m : ModName) : List String := ((dictGet sources m).getD []).flatMap stmtNames

/-- Everything loaded, from one order of uses. -/
def fullState : State := (importAll fresh (objectOrigins.map Prod.fst)).1

/-- The attribute once everything is loaded. -/
def finalVal (m : ModName) (x : String) : Option Obj := lookup fullState m x

/-- The modules that the first use loads. -/
def firstLoaded : List ModName :=
  [["segeval"], ["segeval", "util"], ["segeval", "compute"], ["segeval", "util", "math"]]

/-- The modules, each after those that its body imports. -/
def order : List ModName :=
  [["segeval", "util", "lang"], ["segeval", "util", "math"], ["segeval", "compute"],
   ["segeval", "util"], ["segeval", "format"], ["segeval", "metric"], ["segeval", "ml"],
   ["segeval", "data", "tsv"], ["segeval", "data", "jsonutils"], ["segeval", "data"],
   ["segeval", "data", "samples"], ["segeval", "similarity", "weight"],
   ["segeval", "similarity", "distance"], ["segeval", "similarity", "distance", "multipleboundary"],
   ["segeval", "similarity"], ["segeval", "similarity", "boundary"],
   ["segeval", "similarity", "segmentation"], ["segeval", "window"], ["segeval", "window", "pk"],
   ["segeval", "window", "windowdiff"], ["segeval", "agreement"], ["segeval", "agreement", "pi"],
   ["segeval", "agreement", "kappa"], ["segeval", "agreement", "bias"]]

def rank (m : ModName) : ℕ := order.idxOf m

theorem static_shape : ∀ e ∈ sources, 2 ≤ e.1.length ∧ e.1.length ≤ 4 ∧
    (e.1.dropLast = ["segeval"] ∨ (dictGet sources e.1.dropLast).isSome) ∧
    e.1.getLastD "" ∉ bound e.1.dropLast ∧
    (e.1.dropLast = ["segeval"] → finalVal ["segeval"] (e.1.getLastD "") = some (.module e.1)) ∧
    e.1.getLastD "" ∉ packageAttributes := by
  decide +kernel

/-- What is asked of a statement of the module `m`. -/
def StmtOk (m : ModName) : Stmt → Prop
  | .define xs => ∀ x ∈ xs, finalVal m x = some (.value m x)
  | .fromImport d names =>
    (dictGet sources d).isSome ∧ rank d < rank m ∧
      (∀ q ∈ d.inits, q ≠ d → 2 ≤ q.length → q ∈ m.inits ∨ rank q < rank m) ∧
      ∀ p ∈ names, p.1 ∈ bound d ∧ finalVal d p.1 = finalVal m p.2

instance (m : ModName) (s : Stmt) : Decidable (StmtOk m s) := by
  cases s <;> simp only [StmtOk] <;> infer_instance

theorem static_body : ∀ e ∈ sources, e.1 ∉ firstLoaded → ∀ s ∈ e.2, StmtOk e.1 s := by
  decide +kernel

theorem static_final : ∀ e ∈ sources, ∀ x ∈ bound e.1, (finalVal e.1 x).isSome := by
  decide +kernel

theorem mem_sources {m : ModName} (h : (dictGet sources m).isSome) :
    ∃ body, (m, body) ∈ sources ∧ dictGet sources m = some body := by
  obtain ⟨b, hb⟩ := Option.isSome_iff_exists.1 h
  exact ⟨b, dictGet_mem hb, hb⟩

/-! ## Good states -/

/-- A state in which the modules of the list `P` are still running. -/
structure Good (P : List ModName) (st : State) : Prop where
  first : ∀ m ∈ firstLoaded, (dictGet st m).isSome
  known : ∀ m, (dictGet st m).isSome → m = ["segeval"] ∨ (dictGet sources m).isSome
  complete : ∀ m, (dictGet st m).isSome → m ∉ P → ∀ x ∈ bound m, lookup st m x = finalVal m x
  parents : ∀ m, (dictGet st m).isSome → 2 ≤ m.length → (dictGet st m.dropLast).isSome
  package : ∀ x v, lookup st ["segeval"] x = some v → finalVal ["segeval"] x = some v
  own : ∀ x ∈ packageAttributes, lookup st ["segeval"] x = finalVal ["segeval"] x

/-- Nothing that was there in its final form is lost. -/
structure Ext (st st' : State) : Prop where
  mem : ∀ m, (dictGet st m).isSome → (dictGet st' m).isSome
  keep : ∀ m, (dictGet sources m).isSome → ∀ x ∈ bound m, lookup st m x = finalVal m x →
    lookup st' m x = finalVal m x

theorem Ext.refl (st : State) : Ext st st := ⟨fun _ h => h, fun _ _ _ _ h => h⟩

theorem Ext.trans {a b c : State} (h1 : Ext a b) (h2 : Ext b c) : Ext a c :=
  ⟨fun m h => h2.mem m (h1.mem m h), fun m hm x hx h => h2.keep m hm x hx (h1.keep m hm x hx h)⟩

theorem package_not_source : dictGet sources ["segeval"] = none := by decide +kernel

/-- Binding a name of a running module to its final value. -/
theorem good_bind {P : List ModName} {st : State} (h : Good P st) {m : ModName}
    (hm : (dictGet st m).isSome) (hs : (dictGet sources m).isSome) {x : String} {v : Obj}
    (hv : finalVal m x = some v) :
    Good P (setAttr st m x v) ∧ Ext st (setAttr st m x v) ∧
      lookup (setAttr st m x v) m x = finalVal m x := by
  have hne : m ≠ ["segeval"] := by
    rintro rfl
    rw [package_not_source] at hs
    cases hs
  have hl : ∀ m' x', lookup (setAttr st m x v) m' x' =
      if m' = m ∧ x' = x then some v else lookup st m' x' := lookup_setAttr hm x v
  have keep : ∀ m' x', lookup st m' x' = finalVal m' x' →
      lookup (setAttr st m x v) m' x' = finalVal m' x' := by
    intro m' x' h'
    rw [hl]
    split
    · next hc => rw [hc.1, hc.2, hv]
    · exact h'
  refine ⟨⟨?_, ?_, ?_, ?_, ?_, ?_⟩, ⟨?_, ?_⟩, ?_⟩
  · intro m' hm'
    rw [mem_setAttr]
    exact h.first m' hm'
  · intro m' hm'
    rw [mem_setAttr] at hm'
    exact h.known m' hm'
  · intro m' hm' hp x' hx'
    rw [mem_setAttr] at hm'
    exact keep _ _ (h.complete m' hm' hp x' hx')
  · intro m' hm' hlen
    rw [mem_setAttr] at hm' ⊢
    exact h.parents m' hm' hlen
  · intro x' v' h'
    rw [hl, if_neg (fun hc => hne hc.1.symm)] at h'
    exact h.package x' v' h'
  · intro x' hx'
    exact keep _ _ (h.own x' hx')
  · intro m' hm'
    rw [mem_setAttr]
    exact hm'
  · intro m' _ x' _ h'
    exact keep _ _ h'
  · rw [hl, if_pos ⟨rfl, rfl⟩, hv]

/-- Starting a module. -/
theorem good_start {P : List ModName} {st : State} (h : Good P st) {m : ModName}
    (hm : dictGet st m = none) (hs : (dictGet sources m).isSome)
    (hp : (dictGet st m.dropLast).isSome) :
    Good (m :: P) (dictSet st m []) ∧ Ext st (dictSet st m []) := by
  have hne : m ≠ ["segeval"] := by
    rintro rfl
    rw [package_not_source] at hs
    cases hs
  have hmem : ∀ m', (dictGet st m').isSome → (dictGet (dictSet st m []) m').isSome := by
    intro m' h'
    rw [dictGet_set]
    split
    · rfl
    · exact h'
  have hl : ∀ m' x', m' ≠ m → lookup (dictSet st m []) m' x' = lookup st m' x' := by
    intro m' x' h'
    rw [lookup, dictGet_set, if_neg h']
    rfl
  refine ⟨⟨?_, ?_, ?_, ?_, ?_, ?_⟩, ⟨hmem, ?_⟩⟩
  · intro m' hm'
    exact hmem _ (h.first m' hm')
  · intro m' hm'
    rw [dictGet_set] at hm'
    split at hm'
    · next e => rw [e]; exact Or.inr hs
    · exact h.known m' hm'
  · intro m' hm' hp' x' hx'
    have hne' : m' ≠ m := fun e => hp' (by rw [e]; exact List.mem_cons_self ..)
    rw [dictGet_set, if_neg hne'] at hm'
    rw [hl _ _ hne']
    exact h.complete m' hm' (fun hc => hp' (List.mem_cons_of_mem _ hc)) x' hx'
  · intro m' hm' hlen
    rw [dictGet_set] at hm'
    split at hm'
    · next e => rw [e]; exact hmem _ hp
    · exact hmem _ (h.parents m' hm' hlen)
  · intro x v h'
    rw [hl _ _ hne.symm] at h'
    exact h.package x v h'
  · intro x hx
    rw [hl _ _ hne.symm]
    exact h.own x hx
  · intro m' hs' x hx h'
    have hne' : m' ≠ m := by
      rintro rfl
      obtain ⟨body, hb, _⟩ := mem_sources hs'
      have := static_final _ hb x hx
      rw [← h', lookup, hm] at this
      cases this
    rw [hl _ _ hne']
    exact h'

/-- A module that has run to its end becomes an attribute of its parent. -/
theorem good_finish {P : List ModName} {st : State} {m : ModName} (h : Good (m :: P) st)
    (hm : (dictGet st m).isSome) (hs : (dictGet sources m).isSome)
    (hc : ∀ x ∈ bound m, lookup st m x = finalVal m x) :
    Good P (setAttr st m.dropLast (m.getLastD "") (.module m)) ∧
      Ext st (setAttr st m.dropLast (m.getLastD "") (.module m)) := by
  obtain ⟨body, hb, _⟩ := mem_sources hs
  obtain ⟨h2, _, _, hbound, hfinal, hattr⟩ := static_shape _ hb
  have hp := h.parents m hm h2
  have hl := lookup_setAttr hp (m.getLastD "") (.module m)
  have keep : ∀ m' x', x' ∈ bound m' → lookup st m' x' = finalVal m' x' →
      lookup (setAttr st m.dropLast (m.getLastD "") (.module m)) m' x' = finalVal m' x' := by
    intro m' x' hx' h'
    rw [hl, if_neg]
    · exact h'
    · rintro ⟨rfl, rfl⟩
      exact hbound hx'
  refine ⟨⟨?_, ?_, ?_, ?_, ?_, ?_⟩, ⟨?_, ?_⟩⟩
  · intro m' hm'
    rw [mem_setAttr]
    exact h.first m' hm'
  · intro m' hm'
    rw [mem_setAttr] at hm'
    exact h.known m' hm'
  · intro m' hm' hp' x' hx'
    rw [mem_setAttr] at hm'
    refine keep _ _ hx' ?_
    by_cases e : m' = m
    · rw [e] at hx' ⊢
      exact hc x' hx'
    · exact h.complete m' hm' (by simp [e, hp']) x' hx'
  · intro m' hm' hlen
    rw [mem_setAttr] at hm' ⊢
    exact h.parents m' hm' hlen
  · intro x v h'
    rw [hl] at h'
    split at h'
    · next e => rw [← h', e.2]; exact hfinal e.1.symm
    · exact h.package x v h'
  · intro x hx
    rw [hl, if_neg]
    · exact h.own x hx
    · rintro ⟨_, rfl⟩
      exact hattr hx
  · intro m' hm'
    rw [mem_setAttr]
    exact hm'
  · intro m' _ x' hx' h'
    exact keep _ _ hx' h'

/-! ## Running bodies -/

theorem bind_ok {P : List ModName} {self d : ModName} (hs : (dictGet sources self).isSome)
    (hd : (dictGet sources d).isSome) :
    ∀ (names : List (String × String)) (st : State), Good P st → (dictGet st self).isSome →
      (dictGet st d).isSome → d ∉ P →
      (∀ p ∈ names, p.1 ∈ bound d ∧ finalVal d p.1 = finalVal self p.2) →
      ∃ st', bindNames st self d names = (st', .ok ()) ∧ Good P st' ∧ Ext st st' ∧
        ∀ y ∈ names.map Prod.snd, y ∈ bound self → lookup st' self y = finalVal self y := by
  intro names
  induction names with
  | nil => intro st hg _ _ _ _; exact ⟨st, rfl, hg, Ext.refl _, by simp⟩
  | cons p ps ih =>
    intro st hg hself hdm hp hn
    obtain ⟨x, y⟩ := p
    obtain ⟨hx, hf⟩ := hn (x, y) (List.mem_cons_self ..)
    have hlook := hg.complete d hdm hp x hx
    obtain ⟨body, hb, _⟩ := mem_sources hd
    obtain ⟨v, hv⟩ := Option.isSome_iff_exists.1 (static_final _ hb x hx)
    rw [hv] at hlook
    obtain ⟨g1, e1, l1⟩ := good_bind hg hself hs (x := y) (v := v) (by rw [← hf]; exact hv)
    obtain ⟨st', h1, h2, h3, h4⟩ := ih (setAttr st self y v) g1 (e1.mem _ hself) (e1.mem _ hdm) hp
      (fun q hq => hn q (List.mem_cons_of_mem _ hq))
    refine ⟨st', ?_, h2, e1.trans h3, ?_⟩
    · rw [bindNames]
      simp only [lookup] at hlook
      rw [hlook]
      exact h1
    · intro z hz hbz
      rw [List.map_cons, List.mem_cons] at hz
      rcases hz with rfl | hz
      · exact h3.keep _ hs _ hbz l1
      · exact h4 z hz hbz

theorem define_ok {P : List ModName} {self : ModName} (hs : (dictGet sources self).isSome) :
    ∀ (xs : List String) (st : State), Good P st → (dictGet st self).isSome →
      (∀ x ∈ xs, finalVal self x = some (.value self x)) →
      Good P (xs.foldl (fun st x => setAttr st self x (.value self x)) st) ∧
        Ext st (xs.foldl (fun st x => setAttr st self x (.value self x)) st) ∧
        ∀ y ∈ xs, y ∈ bound self →
          lookup (xs.foldl (fun st x => setAttr st self x (.value self x)) st) self y =
            finalVal self y := by
  intro xs
  induction xs with
  | nil => intro st hg _ _; exact ⟨hg, Ext.refl _, by simp⟩
  | cons x xs ih =>
    intro st hg hself hx
    obtain ⟨g1, e1, l1⟩ := good_bind hg hself hs (hx x (List.mem_cons_self ..))
    obtain ⟨g2, e2, l2⟩ := ih _ g1 (e1.mem _ hself) (fun y hy => hx y (List.mem_cons_of_mem _ hy))
    refine ⟨g2, e1.trans e2, ?_⟩
    intro y hy hb
    rcases List.mem_cons.1 hy with rfl | hy
    · exact e2.keep _ hs _ hb l1
    · exact l2 y hy hb

/-- The number of modules that are not loaded. -/
def unloaded (st : State) : ℕ := (sources.filter fun e => (dictGet st e.1).isNone).length

theorem unloaded_le {st st' : State} (h : ∀ m, (dictGet st m).isSome → (dictGet st' m).isSome) :
    unloaded st' ≤ unloaded st := by
  apply List.Sublist.length_le
  apply List.monotone_filter_right
  intro e he
  cases h' : dictGet st e.1 with
  | none => rfl
  | some v =>
    have := h e.1 (by rw [h']; rfl)
    cases h'' : dictGet st' e.1 with
    | none => rw [h''] at this; cases this
    | some w => rw [h''] at he; cases he

theorem unloaded_lt {st st' : State} (h : ∀ m, (dictGet st m).isSome → (dictGet st' m).isSome)
    {m : ModName} (hs : (dictGet sources m).isSome) (hm : dictGet st m = none)
    (hm' : (dictGet st' m).isSome) : unloaded st' < unloaded st := by
  obtain ⟨body, hb, _⟩ := mem_sources hs
  have hsub : (sources.filter fun e => (dictGet st' e.1).isNone).Sublist
      ((sources.filter fun e => (dictGet st e.1).isNone)) := by
    apply List.monotone_filter_right
    intro e he
    cases h' : dictGet st e.1 with
    | none => rfl
    | some v =>
      have := h e.1 (by rw [h']; rfl)
      cases h'' : dictGet st' e.1 with
      | none => rw [h''] at this; cases this
      | some w => rw [h''] at he; cases he
  rcases Nat.lt_or_ge (unloaded st') (unloaded st) with hlt | hge
  · exact hlt
  · exfalso
    have heq := hsub.eq_of_length_le hge
    have hin : (m, body) ∈ sources.filter fun e => (dictGet st e.1).isNone := by
      rw [List.mem_filter]
      exact ⟨hb, by rw [hm]; rfl⟩
    rw [← heq, List.mem_filter] at hin
    obtain ⟨_, h2⟩ := hin
    obtain ⟨v, hv⟩ := Option.isSome_iff_exists.1 hm'
    rw [hv] at h2
    cases h2

theorem unloaded_le_all (st : State) : unloaded st ≤ 24 :=
  (List.length_filter_le _ _).trans (by decide +kernel)

/-- What importing the known module `m` must do, for modules below those that are running. -/
def Imports (imp : State → ModName → State × Except ImpErr Unit) (P : List ModName) (st : State)
    (m : ModName) : Prop :=
  ∃ st', imp st m = (st', .ok ()) ∧ Good P st' ∧ Ext st st' ∧ (dictGet st' m).isSome

theorem mem_prefixes {P : List ModName} {st : State} (h : Good P st) :
    ∀ (n : ℕ) (m : ModName), m.length ≤ n → (dictGet st m).isSome → ∀ q ∈ m.inits, q ≠ [] →
      (dictGet st q).isSome := by
  intro n
  induction n with
  | zero =>
    intro m hn _ q hq hq0
    have : m = [] := List.length_eq_zero_iff.1 (by omega)
    subst this
    rw [List.mem_inits] at hq
    exact absurd (List.prefix_nil.1 hq) hq0
  | succ n ih =>
    intro m hn hm q hq hq0
    rw [List.mem_inits] at hq
    rcases hq.length_le.eq_or_lt with e | hlt
    · rw [hq.eq_of_length e]; exact hm
    · have hq2 : 0 < q.length := List.length_pos_iff.2 hq0
      refine ih m.dropLast (by simp only [List.length_dropLast]; omega)
        (h.parents m hm (by omega)) q ?_ hq0
      rw [List.mem_inits]
      rw [List.prefix_iff_eq_take] at hq ⊢
      rw [hq, List.dropLast_eq_take, List.take_take, List.length_take]
      congr 1
      omega

/-- Running the body of a known module. -/
theorem body_ok {imp : State → ModName → State × Except ImpErr Unit} {P : List ModName}
    {m : ModName} (hs : (dictGet sources m).isSome) (st0 : State)
    (himp : ∀ st d, Good (m :: P) st → Ext st0 st → (dictGet sources d).isSome →
      rank d < rank m →
      (∀ q ∈ d.inits, q ≠ d → q ≠ [] → (dictGet st q).isSome ∨ rank q < rank m) →
      Imports imp (m :: P) st d) (hm : ∀ p ∈ P, rank m < rank p) :
    ∀ (body : List Stmt) (st : State), (∀ s ∈ body, StmtOk m s) → Good (m :: P) st → Ext st0 st →
      (dictGet st m).isSome →
      ∃ st', execBody imp m st body = (st', .ok ()) ∧ Good (m :: P) st' ∧ Ext st st' ∧
        ∀ y ∈ body.flatMap stmtNames, y ∈ bound m → lookup st' m y = finalVal m y := by
  intro body
  induction body with
  | nil => intro st _ hg _ _; exact ⟨st, rfl, hg, Ext.refl _, by simp⟩
  | cons s rest ih =>
    intro st hok hg he hmem
    have h1 : ∃ st1, execStmt imp m st s = (st1, .ok ()) ∧ Good (m :: P) st1 ∧ Ext st st1 ∧
        ∀ y ∈ stmtNames s, y ∈ bound m → lookup st1 m y = finalVal m y := by
      have hs1 := hok s (List.mem_cons_self ..)
      cases s with
      | define xs =>
        obtain ⟨g, e, l⟩ := define_ok hs xs st hg hmem hs1
        exact ⟨_, rfl, g, e, l⟩
      | fromImport d names =>
        obtain ⟨hd, hr, hanc, hn⟩ := hs1
        obtain ⟨st1, i1, g1, e1, m1⟩ := himp st d hg he hd hr (by
          intro q hq hqd hq0
          rcases Nat.lt_or_ge q.length 2 with hlt | hge
          · left
            have hq1 : q = ["segeval"] := by
              obtain ⟨bd, hbd, _⟩ := mem_sources hd
              have hall : ∀ e ∈ sources, ∀ q ∈ e.1.inits, q ≠ [] → q.length < 2 → q = ["segeval"] := by
                decide +kernel
              exact hall _ hbd q hq hq0 hlt
            rw [hq1]
            exact hg.first _ (by decide)
          · rcases hanc q hq hqd hge with h | h
            · exact Or.inl (mem_prefixes hg _ m le_rfl hmem q h hq0)
            · exact Or.inr h)
        have hdP : d ∉ m :: P := by
          intro hc
          rcases List.mem_cons.1 hc with rfl | hc
          · exact lt_irrefl _ hr
          · exact lt_irrefl _ (hr.trans (hm d hc))
        obtain ⟨st2, b2, g2, e2, l2⟩ := bind_ok hs hd names st1 g1 (e1.mem _ hmem) m1 hdP hn
        refine ⟨st2, ?_, g2, e1.trans e2, l2⟩
        simp only [execStmt, i1]
        exact b2
    obtain ⟨st1, x1, g1, e1, l1⟩ := h1
    obtain ⟨st2, x2, g2, e2, l2⟩ := ih st1 (fun s' hs' => hok s' (List.mem_cons_of_mem _ hs')) g1
      (he.trans e1) (e1.mem _ hmem)
    refine ⟨st2, ?_, g2, e1.trans e2, ?_⟩
    · simp only [execBody, x1]
      exact x2
    · intro y hy hb
      rw [List.flatMap_cons, List.mem_append] at hy
      rcases hy with hy | hy
      · exact e2.keep _ hs _ hb (l1 y hy hb)
      · exact l2 y hy hb

/-- Loading a known module that is not loaded, given imports of the modules below it. -/
theorem load_ok {imp : State → ModName → State × Except ImpErr Unit} {P : List ModName}
    {m : ModName} {st : State} (hg : Good P st) (hs : (dictGet sources m).isSome)
    (hn : dictGet st m = none) (hp : (dictGet st m.dropLast).isSome)
    (himp : ∀ st1 d, Good (m :: P) st1 → unloaded st1 < unloaded st → (dictGet sources d).isSome →
      rank d < rank m →
      (∀ q ∈ d.inits, q ≠ d → q ≠ [] → (dictGet st1 q).isSome ∨ rank q < rank m) →
      Imports imp (m :: P) st1 d) (hm : ∀ p ∈ P, rank m < rank p) :
    Imports (fun st m => loadModule imp st m) P st m := by
  obtain ⟨body, hb, hb'⟩ := mem_sources hs
  obtain ⟨g0, e0⟩ := good_start hg hn hs hp
  have hm0 : (dictGet (dictSet st m []) m).isSome := by rw [dictGet_set, if_pos rfl]; rfl
  have hU : m ∉ firstLoaded := by
    intro hc
    have := hg.first m hc
    rw [hn] at this
    cases this
  obtain ⟨st1, x1, g1, e1, l1⟩ := body_ok (imp := imp) hs (dictSet st m [])
    (fun st1 d h1 h2 h3 h4 h5 => himp st1 d h1
      (lt_of_le_of_lt (unloaded_le h2.mem) (unloaded_lt e0.mem hs hn hm0)) h3 h4 h5) hm body _
    (static_body _ hb hU) g0 (Ext.refl _) hm0
  have hbound : bound m = body.flatMap stmtNames := by rw [bound, hb']; rfl
  obtain ⟨g2, e2⟩ := good_finish g1 (e1.mem _ hm0) hs
    (fun x hx => l1 x (by rw [← hbound]; exact hx) hx)
  refine ⟨_, ?_, g2, (e0.trans e1).trans e2, e2.mem _ (e1.mem _ hm0)⟩
  simp only [loadModule, hb', x1]

/-- Importing a known module succeeds once the first modules are loaded. -/
theorem import_ok : ∀ (fuel : ℕ) (P : List ModName) (st : State) (m : ModName), Good P st →
    (dictGet sources m).isSome → (∀ p ∈ P, rank m < rank p) →
    (∀ q ∈ m.inits, q ≠ m → q ≠ [] → (dictGet st q).isSome ∨ ∀ p ∈ P, rank q < rank p) →
    6 * unloaded st + m.length < fuel → Imports (importFuel fuel) P st m := by
  intro fuel
  induction fuel with
  | zero => intro P st m _ _ _ _ h; exact absurd h (Nat.not_lt_zero _)
  | succ fuel ih =>
    intro P st m hg hs hr hanc hfuel
    obtain ⟨body, hb, hb'⟩ := mem_sources hs
    obtain ⟨hlen, hlen4, hpar, _, _, _⟩ := static_shape _ hb
    simp only at hlen hlen4 hpar
    cases hm : dictGet st m with
    | some ns =>
      refine ⟨st, ?_, hg, Ext.refl _, by rw [hm]; rfl⟩
      simp only [importFuel, hm]
    | none =>
      have hpre : m.dropLast ∈ m.inits := by rw [List.mem_inits]; exact List.dropLast_prefix m
      have hl1 : m.dropLast.length = m.length - 1 := List.length_dropLast ..
      have hne1 : m.dropLast ≠ m := by
        intro e
        rw [e] at hl1
        omega
      have hne0 : m.dropLast ≠ [] := by
        intro e
        rw [e] at hl1
        simp only [List.length_nil] at hl1
        omega
      have hparent : Imports (importFuel fuel) P st m.dropLast := by
        cases hd : dictGet st m.dropLast with
        | some ns =>
          refine ⟨st, ?_, hg, Ext.refl _, by rw [hd]; rfl⟩
          obtain ⟨k, rfl⟩ : ∃ k, fuel = k + 1 := ⟨fuel - 1, by omega⟩
          simp only [importFuel, hd]
        | none =>
          have hps : (dictGet sources m.dropLast).isSome := by
            rcases hpar with h | h
            · have := hg.first ["segeval"] (by decide)
              rw [h] at hd
              rw [hd] at this
              cases this
            · exact h
          refine ih P st m.dropLast hg hps ?_ ?_ (by omega)
          · rcases hanc _ hpre hne1 hne0 with h | h
            · rw [hd] at h
              cases h
            · exact h
          · intro q hq hqd hq0
            refine hanc q ?_ ?_ hq0
            · rw [List.mem_inits] at hq ⊢
              exact hq.trans (List.dropLast_prefix m)
            · rintro rfl
              rw [List.mem_inits] at hq
              have := hq.length_le
              omega
      obtain ⟨st1, i1, g1, e1, m1⟩ := hparent
      have hstep : importFuel (fuel + 1) st m =
          match dictGet st1 m with
          | some _ => (st1, .ok ())
          | none => loadModule (importFuel fuel) st1 m := by
        obtain ⟨a, b, c, rfl⟩ : ∃ a b c, m = a :: b :: c := by
          match m, hlen with
          | a :: b :: c, _ => exact ⟨a, b, c, rfl⟩
        simp only [importFuel, hm, i1]
        cases dictGet st1 (a :: b :: c) <;> rfl
      cases hm1 : dictGet st1 m with
      | some ns =>
        refine ⟨st1, ?_, g1, e1, by rw [hm1]; rfl⟩
        rw [hstep, hm1]
      | none =>
        have hle := unloaded_le e1.mem
        obtain ⟨st2, x2, g2, e2, m2⟩ := load_ok (imp := importFuel fuel) g1 hs hm1 m1 (by
          intro st2 d h1 h2 h3 h4 h5
          obtain ⟨bd, hbd, _⟩ := mem_sources h3
          obtain ⟨_, hd4, _⟩ := static_shape _ hbd
          refine ih (m :: P) st2 d h1 h3 ?_ ?_ ?_
          · intro p hp
            rcases List.mem_cons.1 hp with rfl | hp
            · exact h4
            · exact h4.trans (hr p hp)
          · intro q hq hqd hq0
            rcases h5 q hq hqd hq0 with h | h
            · exact Or.inl h
            · right
              intro p hp
              rcases List.mem_cons.1 hp with rfl | hp
              · exact h
              · exact h.trans (hr p hp)
          · simp only at hd4
            omega) hr
        refine ⟨st2, ?_, g2, e1.trans e2, m2⟩
        rw [hstep, hm1]
        exact x2

/-! ## Uses of the package -/

/-- The names that the package exports. -/
def exported : List String := objectOrigins.map Prod.fst

theorem static_exports : ∀ e ∈ objectOrigins, (dictGet sources e.2).isSome ∧ e.1 ∈ bound e.2 ∧
    finalVal e.2 e.1 = some (.value e.2 e.1) ∧ finalVal ["segeval"] e.1 = some (.value e.2 e.1) ∧
    (dictGet allByModule e.2).isSome := by
  decide +kernel

theorem static_modules : ∀ e ∈ allByModule, (dictGet sources e.1).isSome ∧ ∀ x ∈ e.2,
    x ∈ bound e.1 ∧ finalVal ["segeval"] x = finalVal e.1 x := by
  decide +kernel

theorem import_good {st : State} (hg : Good [] st) {m : ModName} (hs : (dictGet sources m).isSome)
    {fuel : ℕ} (hf : 150 ≤ fuel) : Imports (importFuel fuel) [] st m := by
  obtain ⟨body, hb, _⟩ := mem_sources hs
  obtain ⟨_, h4, _⟩ := static_shape _ hb
  simp only at h4
  have := unloaded_le_all st
  exact import_ok fuel [] st m hg hs (by simp) (by simp) (by omega)

theorem good_export {st : State} (hg : Good [] st) {x : String} {v : Obj}
    (hv : finalVal ["segeval"] x = some v) :
    Good [] (setAttr st ["segeval"] x v) ∧ Ext st (setAttr st ["segeval"] x v) := by
  have hp := hg.first ["segeval"] (by decide)
  have hl := lookup_setAttr hp x v
  have keep : ∀ m' x', lookup st m' x' = finalVal m' x' →
      lookup (setAttr st ["segeval"] x v) m' x' = finalVal m' x' := by
    intro m' x' h'
    rw [hl]
    split
    · next hc => rw [hc.1, hc.2, hv]
    · exact h'
  refine ⟨⟨?_, ?_, ?_, ?_, ?_, ?_⟩, ⟨?_, ?_⟩⟩
  · intro m' hm'
    rw [mem_setAttr]
    exact hg.first m' hm'
  · intro m' hm'
    rw [mem_setAttr] at hm'
    exact hg.known m' hm'
  · intro m' hm' hp x' hx'
    rw [mem_setAttr] at hm'
    exact keep _ _ (hg.complete m' hm' hp x' hx')
  · intro m' hm' hlen
    rw [mem_setAttr] at hm' ⊢
    exact hg.parents m' hm' hlen
  · intro x' v' h'
    rw [hl] at h'
    split at h'
    · next hc => rw [hc.2, ← h']; exact hv
    · exact hg.package x' v' h'
  · intro x' hx'
    exact keep _ _ (hg.own x' hx')
  · intro m' hm'
    rw [mem_setAttr]
    exact hm'
  · intro m' _ x' _ h'
    exact keep _ _ h'

theorem copy_ok {m : ModName} (hs : (dictGet sources m).isSome) : ∀ (xs : List String) (st : State),
    Good [] st → (dictGet st m).isSome →
    (∀ x ∈ xs, x ∈ bound m ∧ finalVal ["segeval"] x = finalVal m x) →
    ∃ st', copyExports st m xs = (st', .ok ()) ∧ Good [] st' ∧ Ext st st' := by
  intro xs
  induction xs with
  | nil => intro st hg _ _; exact ⟨st, rfl, hg, Ext.refl _⟩
  | cons x xs ih =>
    intro st hg hm hx
    obtain ⟨hb, hf⟩ := hx x (List.mem_cons_self ..)
    have hl := hg.complete m hm (by simp) x hb
    obtain ⟨body, hbody, _⟩ := mem_sources hs
    obtain ⟨v, hv⟩ := Option.isSome_iff_exists.1 (static_final _ hbody x hb)
    rw [hv] at hl
    obtain ⟨g1, e1⟩ := good_export hg (x := x) (v := v) (by rw [hf]; exact hv)
    obtain ⟨st', h1, h2, h3⟩ := ih _ g1 (e1.mem _ hm) (fun y hy => hx y (List.mem_cons_of_mem _ hy))
    refine ⟨st', ?_, h2, e1.trans h3⟩
    simp only [lookup] at hl
    rw [copyExports, hl]
    exact h1

/-- The module that exports a name. -/
theorem origin {x : String} (h : x ∈ exported) : ∃ m, dictGet objectOrigins x = some m ∧
    (x, m) ∈ objectOrigins := by
  have : (dictGet objectOrigins x).isSome := by
    revert x
    decide +kernel
  obtain ⟨m, hm⟩ := Option.isSome_iff_exists.1 this
  exact ⟨m, hm, dictGet_mem hm⟩

theorem getAttribute_good {st : State} (hg : Good [] st) {x : String} {m : ModName}
    (hx : (x, m) ∈ objectOrigins) :
    ∃ st', getAttribute st x = (st', .ok (.value m x)) ∧ Good [] st' := by
  obtain ⟨h1, h2, h3, h4, h5⟩ := static_exports _ hx
  simp only at h1 h2 h3 h4 h5
  cases hl : lookup st ["segeval"] x with
  | some v =>
    have := hg.package x v hl
    rw [h4] at this
    cases this
    refine ⟨st, ?_, hg⟩
    simp only [lookup] at hl
    simp only [getAttribute, hl]
  | none =>
    have ho : dictGet objectOrigins x = some m := by
      have hall : ∀ e ∈ objectOrigins, dictGet objectOrigins e.1 = some e.2 := by decide +kernel
      exact hall _ hx
    obtain ⟨st1, i1, g1, e1, m1⟩ := import_good hg h1 (fuel := 200 + m.length) (by omega)
    obtain ⟨extras, hex⟩ := Option.isSome_iff_exists.1 h5
    obtain ⟨st2, c2, g2, e2⟩ := copy_ok h1 extras st1 g1 m1 (static_modules _ (dictGet_mem hex)).2
    have hl2 := g2.complete m (e2.mem _ m1) (by simp) x h2
    rw [h3] at hl2
    refine ⟨st2, ?_, g2⟩
    simp only [lookup] at hl hl2
    simp only [getAttribute, hl, packageGetattr, ho, importModule, i1, hex, c2, hl2]

theorem getAttribute_other {st : State} {x : String} (hx : x ∉ exported) :
    (getAttribute st x).1 = st := by
  have ho : dictGet objectOrigins x = none := by
    cases h : dictGet objectOrigins x with
    | none => rfl
    | some m => exact absurd (List.mem_map.2 ⟨_, dictGet_mem h, rfl⟩) hx
  simp only [getAttribute]
  cases h : (dictGet st ["segeval"]).bind (dictGet · x) with
  | some v => rfl
  | none => simp only [packageGetattr, ho, h]

theorem importAll_good : ∀ (names : List String) (st : State), Good [] st →
    (∀ x ∈ names, x ∈ exported) →
    ∃ st', importAll st names = (st', .ok ()) ∧ Good [] st' := by
  intro names
  induction names with
  | nil => intro st hg _; exact ⟨st, rfl, hg⟩
  | cons x xs ih =>
    intro st hg hx
    obtain ⟨m, _, hm⟩ := origin (hx x (List.mem_cons_self ..))
    obtain ⟨st1, h1, g1⟩ := getAttribute_good hg hm
    obtain ⟨st2, h2, g2⟩ := ih st1 g1 (fun y hy => hx y (List.mem_cons_of_mem _ hy))
    refine ⟨st2, ?_, g2⟩
    simp only [importAll, h1]
    exact h2

/-- One step of an import, when the module is not loaded. -/
theorem importFuel_step (fuel : ℕ) (st : State) {m : ModName} (hm : dictGet st m = none)
    (hlen : 2 ≤ m.length) : importFuel (fuel + 1) st m =
      match importFuel fuel st m.dropLast with
      | (st, .error e) => (st, .error e)
      | (st, .ok ()) =>
        match dictGet st m with
        | some _ => (st, .ok ())
        | none => loadModule (importFuel fuel) st m := by
  obtain ⟨a, b, c, rfl⟩ : ∃ a b c, m = a :: b :: c := by
    match m, hlen with
    | a :: b :: c, _ => exact ⟨a, b, c, rfl⟩
  simp only [importFuel, hm]
  rfl

/-- Importing a module that there is not, or any other. -/
theorem import_any : ∀ (n : ℕ) (m : ModName) (st : State), m.length ≤ n → Good [] st →
    ∃ st', (importFuel (200 + m.length) st m).1 = st' ∧ Good [] st' := by
  intro n
  induction n with
  | zero =>
    intro m st hn hg
    have : m = [] := List.length_eq_zero_iff.1 (by omega)
    subst this
    refine ⟨st, ?_, hg⟩
    simp only [List.length_nil, importFuel]
    cases dictGet st ([] : ModName) <;> rfl
  | succ n ih =>
    intro m st hn hg
    cases hm : dictGet st m with
    | some ns =>
      refine ⟨st, ?_, hg⟩
      rw [show 200 + m.length = (199 + m.length) + 1 by omega]
      simp only [importFuel, hm]
    | none =>
      by_cases hs : (dictGet sources m).isSome
      · obtain ⟨st', i, g, _⟩ := import_good hg hs (fuel := 200 + m.length) (by omega)
        exact ⟨st', by rw [i], g⟩
      · rcases Nat.lt_or_ge m.length 2 with hlt | hge
        · refine ⟨st, ?_, hg⟩
          rw [show 200 + m.length = (199 + m.length) + 1 by omega]
          match m, hlt, hm with
          | [], _, hm => simp only [importFuel, hm]
          | [_], _, hm => simp only [importFuel, hm]
        · have hl1 : m.dropLast.length = m.length - 1 := List.length_dropLast ..
          obtain ⟨st1, i1, g1⟩ := ih m.dropLast st (by omega) hg
          rw [show 200 + m.length = (200 + m.dropLast.length) + 1 by omega,
            importFuel_step _ _ hm hge]
          cases hr : importFuel (200 + m.dropLast.length) st m.dropLast with
          | mk st2 r =>
            rw [hr] at i1
            simp only at i1
            subst i1
            refine ⟨st2, ?_, g1⟩
            cases r with
            | error e => rfl
            | ok u =>
              have hn2 : dictGet st2 m = none := by
                cases h2 : dictGet st2 m with
                | none => rfl
                | some ns =>
                  rcases g1.known m (by rw [h2]; rfl) with e | e
                  · rw [e] at hge
                    simp at hge
                  · exact absurd e hs
              have hs' : dictGet sources m = none := by
                cases h : dictGet sources m with
                | none => rfl
                | some b => rw [h] at hs; exact absurd rfl hs
              simp only [hn2, loadModule, hs']

/-! ## The first use -/

/-- A check for good states. -/
def GoodCheck (st : State) : Prop :=
  (∀ m ∈ firstLoaded, (dictGet st m).isSome) ∧
  (∀ e ∈ st, (e.1 = ["segeval"] ∨ (dictGet sources e.1).isSome) ∧
    (∀ x ∈ bound e.1, lookup st e.1 x = finalVal e.1 x) ∧
    (2 ≤ e.1.length → (dictGet st e.1.dropLast).isSome)) ∧
  (∀ e ∈ (dictGet st ["segeval"]).getD [], finalVal ["segeval"] e.1 = some e.2) ∧
  ∀ x ∈ packageAttributes, lookup st ["segeval"] x = finalVal ["segeval"] x

instance (st : State) : Decidable (GoodCheck st) := by
  unfold GoodCheck
  infer_instance

theorem good_of_check {st : State} (h : GoodCheck st) : Good [] st := by
  obtain ⟨h1, h2, h3, h4⟩ := h
  have hmem : ∀ m, (dictGet st m).isSome → ∃ ns, (m, ns) ∈ st := by
    intro m hm
    obtain ⟨ns, hns⟩ := Option.isSome_iff_exists.1 hm
    exact ⟨ns, dictGet_mem hns⟩
  refine ⟨h1, ?_, ?_, ?_, ?_, h4⟩
  · intro m hm
    obtain ⟨ns, hns⟩ := hmem m hm
    exact (h2 _ hns).1
  · intro m hm _ x hx
    obtain ⟨ns, hns⟩ := hmem m hm
    exact (h2 _ hns).2.1 x hx
  · intro m hm hl
    obtain ⟨ns, hns⟩ := hmem m hm
    exact (h2 _ hns).2.2 hl
  · intro x v hv
    simp only [lookup] at hv
    cases hp : dictGet st ["segeval"] with
    | none => rw [hp] at hv; cases hv
    | some ns =>
      rw [hp] at hv
      rw [hp] at h3
      exact h3 _ (dictGet_mem hv)

theorem cold_modules : ∀ e ∈ sources, e.1 ≠ ["segeval", "compute"] →
    (importFuel (200 + e.1.length) fresh e.1).2 = .ok () ∧
      GoodCheck (importFuel (200 + e.1.length) fresh e.1).1 := by
  decide +kernel

theorem cold_exports : ∀ e ∈ objectOrigins, e.1 ≠ "summarize" →
    (getAttribute fresh e.1).2 = .ok (.value e.2 e.1) ∧ GoodCheck (getAttribute fresh e.1).1 := by
  decide +kernel

theorem cold_compute : importFuel 202 fresh ["segeval", "compute"] =
    (fresh, .error (.cannotImport ["segeval", "compute"] "compute_pairwise_values")) := by
  decide +kernel

theorem cold_summarize : getAttribute fresh "summarize" =
    (fresh, .error (.cannotImport ["segeval", "compute"] "compute_pairwise_values")) := by
  decide +kernel

theorem good_not_fresh {st : State} (h : Good [] st) : st ≠ fresh := by
  rintro rfl
  have := h.first ["segeval", "util"] (by decide)
  revert this
  decide +kernel

theorem fresh_mem {m : ModName} (h : m ≠ ["segeval"]) : dictGet fresh m = none := by
  simp only [fresh, dictGet, if_neg (Ne.symm h)]

/-- A failed import of a module fails for what is below it. -/
theorem cold_error {p : ModName} (hp : p ≠ []) {e : ImpErr}
    (h : importFuel (200 + p.length) fresh p = (fresh, .error e)) : ∀ (n : ℕ) (rest : List String),
    rest.length ≤ n → importFuel (200 + (p ++ rest).length) fresh (p ++ rest) = (fresh, .error e) := by
  intro n
  induction n with
  | zero =>
    intro rest hr
    have : rest = [] := List.length_eq_zero_iff.1 (by omega)
    rw [this, List.append_nil]
    exact h
  | succ n ih =>
    intro rest hr
    rcases List.eq_nil_or_concat rest with rfl | ⟨init, last, rfl⟩
    · rw [List.append_nil]
      exact h
    · simp only [List.concat_eq_append] at hr ⊢
      have hpl : 0 < p.length := List.length_pos_iff.2 hp
      have hlen : 2 ≤ (p ++ (init ++ [last])).length := by
        simp only [List.length_append, List.length_cons, List.length_nil]
        omega
      have hdrop : (p ++ (init ++ [last])).dropLast = p ++ init := by
        rw [← List.append_assoc, List.dropLast_concat]
      have hne : p ++ (init ++ [last]) ≠ ["segeval"] := by
        intro e
        rw [e] at hlen
        simp at hlen
      rw [show 200 + (p ++ (init ++ [last])).length = (200 + (p ++ init).length) + 1 by
        simp only [List.length_append, List.length_cons, List.length_nil]; omega,
        importFuel_step _ _ (fresh_mem hne) hlen, hdrop,
        ih init (by simp only [List.length_append, List.length_cons, List.length_nil] at hr; omega)]

/-- Importing a module, or anything below it, that is not `segeval.compute`, in a new
interpreter. -/
theorem cold_good {p : ModName} (hp : (dictGet sources p).isSome) (hpc : p ≠ ["segeval", "compute"])
    (hp2 : p.length = 2) : ∀ (n : ℕ) (rest : List String), rest.length ≤ n →
    Good [] (importFuel (200 + (p ++ rest).length) fresh (p ++ rest)).1 := by
  have base : ∀ m : ModName, (dictGet sources m).isSome → m ≠ ["segeval", "compute"] →
      Good [] (importFuel (200 + m.length) fresh m).1 := by
    intro m hm hmc
    obtain ⟨body, hb, _⟩ := mem_sources hm
    exact good_of_check (cold_modules _ hb hmc).2
  intro n
  induction n with
  | zero =>
    intro rest hr
    have : rest = [] := List.length_eq_zero_iff.1 (by omega)
    rw [this, List.append_nil]
    exact base p hp hpc
  | succ n ih =>
    intro rest hr
    rcases List.eq_nil_or_concat rest with rfl | ⟨init, last, rfl⟩
    · rw [List.append_nil]
      exact base p hp hpc
    · simp only [List.concat_eq_append] at hr ⊢
      have hlen : 2 < (p ++ (init ++ [last])).length := by
        simp only [List.length_append, List.length_cons, List.length_nil]
        omega
      by_cases hs : (dictGet sources (p ++ (init ++ [last]))).isSome
      · refine base _ hs ?_
        intro e
        rw [e] at hlen
        simp at hlen
      · have hdrop : (p ++ (init ++ [last])).dropLast = p ++ init := by
          rw [← List.append_assoc, List.dropLast_concat]
        have hne : p ++ (init ++ [last]) ≠ ["segeval"] := by
          intro e
          rw [e] at hlen
          simp at hlen
        have ih1 := ih init (by
          simp only [List.length_append, List.length_cons, List.length_nil] at hr; omega)
        rw [show 200 + (p ++ (init ++ [last])).length = (200 + (p ++ init).length) + 1 by
          simp only [List.length_append, List.length_cons, List.length_nil]; omega,
          importFuel_step _ _ (fresh_mem hne) hlen.le, hdrop]
        cases hr : importFuel (200 + (p ++ init).length) fresh (p ++ init) with
        | mk st2 r =>
          rw [hr] at ih1
          cases r with
          | error e => exact ih1
          | ok u =>
            have hn2 : dictGet st2 (p ++ (init ++ [last])) = none := by
              cases h2 : dictGet st2 (p ++ (init ++ [last])) with
              | none => rfl
              | some ns =>
                rcases ih1.known _ (by rw [h2]; rfl) with e | e
                · exact absurd e hne
                · exact absurd e hs
            have hs' : dictGet sources (p ++ (init ++ [last])) = none := by
              cases h : dictGet sources (p ++ (init ++ [last])) with
              | none => rfl
              | some b => rw [h] at hs; exact absurd rfl hs
            simp only [hn2, loadModule, hs']
            exact ih1

end SegEval.Package
