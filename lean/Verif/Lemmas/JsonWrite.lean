import Verif.Lemmas.Names

namespace SegEval

open Spec

/-! ## Sorting keys -/

section SortKeys

variable {α β : Type _}

theorem insertKey_map (g : α → β) (e : PyKey × α) (l : List (PyKey × α)) :
    insertKey (e.1, g e.2) (l.map (fun x => (x.1, g x.2))) =
      (insertKey e l).map (List.map (fun x => (x.1, g x.2))) := by
  induction l with
  | nil => rfl
  | cons x xs ih =>
    simp only [List.map_cons, insertKey]
    cases x.1.lt e.1 with
    | error err => rfl
    | ok b =>
      cases b with
      | false => rfl
      | true =>
        simp only
        rw [ih]
        cases insertKey e xs <;> rfl

theorem sortPyKeys_map (g : α → β) (l : List (PyKey × α)) :
    sortPyKeys (l.map (fun x => (x.1, g x.2))) = (sortPyKeys l).map (List.map (fun x => (x.1, g x.2))) := by
  induction l with
  | nil => rfl
  | cons e es ih =>
    simp only [List.map_cons, sortPyKeys]
    rw [ih]
    cases sortPyKeys es with
    | error err => rfl
    | ok l => exact insertKey_map g e l

theorem insertKey_perm {e : PyKey × α} {l l' : List (PyKey × α)} (h : insertKey e l = .ok l') :
    l'.Perm (e :: l) := by
  induction l generalizing l' with
  | nil => cases h; rfl
  | cons x xs ih =>
    simp only [insertKey] at h
    cases hc : x.1.lt e.1 with
    | error err => rw [hc] at h; cases h
    | ok b =>
      rw [hc] at h
      cases b with
      | false => cases h; rfl
      | true =>
        simp only at h
        cases hi : insertKey e xs with
        | error err => rw [hi] at h; cases h
        | ok l2 =>
          rw [hi] at h
          cases h
          exact ((ih hi).cons x).trans (List.Perm.swap _ _ _)

theorem sortPyKeys_perm {l l' : List (PyKey × α)} (h : sortPyKeys l = .ok l') : l'.Perm l := by
  induction l generalizing l' with
  | nil => cases h; rfl
  | cons e es ih =>
    simp only [sortPyKeys] at h
    cases hs : sortPyKeys es with
    | error err => rw [hs] at h; cases h
    | ok l2 =>
      rw [hs] at h
      exact (insertKey_perm h).trans ((ih hs).cons e)

theorem insertKey_error {e : PyKey × α} {l : List (PyKey × α)} {err : PyErr} (h : insertKey e l = .error err) :
    err = .typeError ∧ ¬ OneKind (e.1 :: l.map Prod.fst) := by
  induction l with
  | nil => cases h
  | cons x xs ih =>
    simp only [insertKey] at h
    cases hc : x.1.lt e.1 with
    | error err' =>
      rw [hc] at h
      cases h
      obtain ⟨k, v⟩ := e
      obtain ⟨k', v'⟩ := x
      cases k <;> cases k' <;> simp only [PyKey.lt] at hc <;> cases hc <;>
        refine ⟨rfl, ?_⟩ <;> rintro (h | h)
      · obtain ⟨_, h⟩ := h (.str _) (by simp; exact .inl rfl); cases h
      · obtain ⟨_, h⟩ := h (.int _) (by simp; exact .inl rfl); cases h
      · obtain ⟨_, h⟩ := h (.str _) (by simp; exact .inl rfl); cases h
      · obtain ⟨_, h⟩ := h (.int _) (by simp; exact .inl rfl); cases h
    | ok b =>
      rw [hc] at h
      cases b with
      | false => cases h
      | true =>
        simp only at h
        cases hi : insertKey e xs with
        | ok l2 => rw [hi] at h; cases h
        | error err' =>
          rw [hi] at h
          cases h
          obtain ⟨h1, h2⟩ := ih hi
          refine ⟨h1, fun h => h2 ?_⟩
          rcases h with h | h
          · exact .inl (fun k hk => h k (by simp only [List.map_cons, List.mem_cons] at hk ⊢; tauto))
          · exact .inr (fun k hk => h k (by simp only [List.map_cons, List.mem_cons] at hk ⊢; tauto))

theorem oneKind_perm {l l' : List PyKey} (h : l.Perm l') : OneKind l ↔ OneKind l' := by
  unfold OneKind
  simp only [h.mem_iff]

theorem oneKind_tail {k : PyKey} {l : List PyKey} (h : OneKind (k :: l)) : OneKind l := by
  rcases h with h | h
  · exact .inl (fun x hx => h x (List.mem_cons_of_mem _ hx))
  · exact .inr (fun x hx => h x (List.mem_cons_of_mem _ hx))

theorem sortPyKeys_error {l : List (PyKey × α)} {err : PyErr} (h : sortPyKeys l = .error err) :
    err = .typeError ∧ ¬ OneKind (l.map Prod.fst) := by
  induction l with
  | nil => cases h
  | cons e es ih =>
    simp only [sortPyKeys] at h
    cases hs : sortPyKeys es with
    | error err' =>
      rw [hs] at h
      cases h
      obtain ⟨h1, h2⟩ := ih hs
      exact ⟨h1, fun h => h2 (oneKind_tail h)⟩
    | ok l2 =>
      rw [hs] at h
      obtain ⟨h1, h2⟩ := insertKey_error h
      refine ⟨h1, fun h => h2 ?_⟩
      refine (oneKind_perm ?_).1 h
      simp only [List.map_cons]
      exact ((sortPyKeys_perm hs).map Prod.fst).symm.cons _

theorem insertKey_ok {e : PyKey × α} {l l' : List (PyKey × α)} (h : insertKey e l = .ok l')
    (hl : OneKind (l.map Prod.fst)) : OneKind (e.1 :: l.map Prod.fst) := by
  cases l with
  | nil =>
    obtain ⟨k, v⟩ := e
    cases k with
    | int n => exact .inl (by simp)
    | str s => exact .inr (by simp)
  | cons x xs =>
    simp only [insertKey] at h
    cases hc : x.1.lt e.1 with
    | error err => rw [hc] at h; cases h
    | ok b =>
      rcases hl with hl | hl
      · obtain ⟨n, hn⟩ := hl x.1 (by simp)
        rw [hn] at hc
        cases he : e.1 with
        | str s => rw [he] at hc; cases hc
        | int m =>
          refine .inl ?_
          intro k hk
          rcases List.mem_cons.1 hk with rfl | hk
          · exact ⟨m, rfl⟩
          · exact hl k hk
      · obtain ⟨n, hn⟩ := hl x.1 (by simp)
        rw [hn] at hc
        cases he : e.1 with
        | int s => rw [he] at hc; cases hc
        | str m =>
          refine .inr ?_
          intro k hk
          rcases List.mem_cons.1 hk with rfl | hk
          · exact ⟨m, rfl⟩
          · exact hl k hk

theorem sortPyKeys_ok {l l' : List (PyKey × α)} (h : sortPyKeys l = .ok l') : OneKind (l.map Prod.fst) := by
  induction l generalizing l' with
  | nil => exact .inl (by simp)
  | cons e es ih =>
    simp only [sortPyKeys] at h
    cases hs : sortPyKeys es with
    | error err' => rw [hs] at h; cases h
    | ok l2 =>
      rw [hs] at h
      have hp := (sortPyKeys_perm hs).map Prod.fst
      have := insertKey_ok h ((oneKind_perm hp).2 (ih hs))
      exact (oneKind_perm (hp.cons _)).1 this

theorem sortPyKeys_ok_iff {l : List (PyKey × α)} : (∃ l', sortPyKeys l = .ok l') ↔ OneKind (l.map Prod.fst) := by
  constructor
  · rintro ⟨l', h⟩
    exact sortPyKeys_ok h
  · intro h
    cases hs : sortPyKeys l with
    | ok l' => exact ⟨l', rfl⟩
    | error err => exact absurd h (sortPyKeys_error hs).2

end SortKeys

/-! ## Writing -/

mutual
/-- The value in the file. -/
def jsonOf : PVal → JVal
  | .null => .null
  | .bool b => .bool b
  | .num n => .num n
  | .float r => .float r
  | .str s => .str s
  | .arr l => .arr (jsonElems l)
  | .obj l =>
    match sortPyKeys (jsonEntries l) with
    | .ok l' => .obj (l'.map (fun e => (e.1.toStr, e.2)))
    | .error _ => .null
  | .other => .null
/-- The elements of a list. -/
def jsonElems : List PVal → List JVal
  | [] => []
  | v :: l => jsonOf v :: jsonElems l
/-- The entries of a dict. -/
def jsonEntries : List (PyKey × PVal) → List (PyKey × JVal)
  | [] => []
  | (k, v) :: l => (k, jsonOf v) :: jsonEntries l
end

theorem writeEntries_eq (level : ℕ) (l : List (PyKey × PVal)) :
    writeEntries level l = l.map (fun e => (e.1, writeJson level e.2)) := by
  induction l with
  | nil => rfl
  | cons e es ih => obtain ⟨k, v⟩ := e; rw [writeEntries, ih]; rfl

theorem writeElems_eq (level : ℕ) (l : List PVal) : writeElems level l = l.map (writeJson level) := by
  induction l with
  | nil => rfl
  | cons e es ih => rw [writeElems, ih]; rfl

theorem jsonEntries_eq (l : List (PyKey × PVal)) : jsonEntries l = l.map (fun e => (e.1, jsonOf e.2)) := by
  induction l with
  | nil => rfl
  | cons e es ih => obtain ⟨k, v⟩ := e; rw [jsonEntries, ih]; rfl

theorem jsonElems_eq (l : List PVal) : jsonElems l = l.map jsonOf := by
  induction l with
  | nil => rfl
  | cons e es ih => rw [jsonElems, ih]; rfl

/-- The text ends where something must follow. -/
def Hanging (t : Name) : Prop :=
  ∃ p c g, t = p ++ c :: g ∧ Gap g ∧ (c = '{' ∨ c = '[' ∨ c = ',' ∨ c = ':')

theorem hanging_append (p : Name) {t : Name} (h : Hanging t) : Hanging (p ++ t) := by
  obtain ⟨q, c, g, rfl, hg, hc⟩ := h
  exact ⟨p ++ q, c, g, by simp, hg, hc⟩

/-- A failure that leaves nothing or an unfinished text. -/
def Bad (w : Written) : Prop := w.failed = some .typeError ∧ (w.text = [] ∨ Hanging w.text)

/-- A failure that leaves an unfinished text. -/
def Bad' (w : Written) : Prop := w.failed = some .typeError ∧ Hanging w.text

theorem Bad'.bad {w : Written} (h : Bad' w) : Bad w := ⟨h.1, .inr h.2⟩

theorem ok_andThen (t : Name) (w : Written) : (Written.ok t).andThen w = ⟨t ++ w.text, w.failed⟩ := rfl

theorem ok_ok (t u : Name) : (Written.ok t).andThen (.ok u) = .ok (t ++ u) := rfl

theorem hang_then {t : Name} {w : Written} (ht : Hanging t) (h : Bad w) : Bad' ((Written.ok t).andThen w) := by
  rw [ok_andThen]
  refine ⟨h.1, ?_⟩
  rcases h.2 with h2 | h2
  · simp only [h2, List.append_nil]; exact ht
  · exact hanging_append t h2

theorem bad'_after (t : Name) {w : Written} (h : Bad' w) : Bad' ((Written.ok t).andThen w) := by
  rw [ok_andThen]
  exact ⟨h.1, hanging_append t h.2⟩

theorem bad_then {w : Written} (h : Bad w) (u : Written) : w.andThen u = w := by
  unfold Written.andThen
  rw [h.1]

theorem hanging_comma (level : ℕ) : Hanging (',' :: newline level) := ⟨[], ',', _, rfl, gap_newline level, by simp⟩

theorem hanging_arr (level : ℕ) : Hanging ('[' :: newline level) := ⟨[], '[', _, rfl, gap_newline level, by simp⟩

theorem hanging_obj (level : ℕ) : Hanging ('{' :: newline level) := ⟨[], '{', _, rfl, gap_newline level, by simp⟩

theorem hanging_key (k : Name) : Hanging (dumpString k ++ [':', ' ']) :=
  hanging_append _ ⟨[], ':', [' '], rfl, gap_space, by simp⟩

/-- Each element was written, or failed. -/
def OkOrBad {α : Type _} (bad : α → Prop) (text : α → Name) (w : α → Written) (x : α) : Prop :=
  (¬ bad x → w x = .ok (text x)) ∧ (bad x → Bad (w x))

theorem writeRest_bad {α : Type _} {bad : α → Prop} {text : α → Name} {w : α → Written} (level : ℕ) {l : List α}
    (h : ∀ x ∈ l, OkOrBad bad text w x) (hb : ∃ x ∈ l, bad x) : Bad' (writeRest level (l.map w)) := by
  induction l with
  | nil => obtain ⟨x, hx, _⟩ := hb; cases hx
  | cons y ys ih =>
    rw [List.map_cons, writeRest]
    by_cases hy : bad y
    · have := (h y List.mem_cons_self).2 hy
      rw [bad_then this]
      exact hang_then (hanging_comma level) this
    · rw [(h y List.mem_cons_self).1 hy]
      refine bad'_after _ (bad'_after _ (ih (fun x hx => h x (List.mem_cons_of_mem _ hx)) ?_))
      obtain ⟨x, hx, hbx⟩ := hb
      rcases List.mem_cons.1 hx with rfl | hx
      · exact absurd hbx hy
      · exact ⟨x, hx, hbx⟩

/-- The texts after the first, each after a comma. -/
def restText (level : ℕ) : List Name → Name
  | [] => []
  | t :: l => ',' :: newline level ++ t ++ restText level l

theorem writeRest_ok {α : Type _} {text : α → Name} {w : α → Written} (level : ℕ) {l : List α}
    (h : ∀ x ∈ l, w x = .ok (text x)) : writeRest level (l.map w) = .ok (restText level (l.map text)) := by
  induction l with
  | nil => rfl
  | cons y ys ih =>
    rw [List.map_cons, writeRest, h y List.mem_cons_self, ih (fun x hx => h x (List.mem_cons_of_mem _ hx)),
      List.map_cons, restText, ok_ok, ok_ok]
    simp

theorem restText_elems (level : ℕ) (l : List JVal) : restText level (l.map (dumpJson level)) = dumpElems level l := by
  induction l with
  | nil => simp [restText, dumpElems]
  | cons v l ih => rw [List.map_cons, restText, dumpElems, ih]

theorem restText_members (level : ℕ) (l : List (Name × JVal)) :
    restText level (l.map (fun e => dumpString e.1 ++ ':' :: ' ' :: dumpJson level e.2)) = dumpMembers level l := by
  induction l with
  | nil => simp [restText, dumpMembers]
  | cons v l ih => obtain ⟨k, v⟩ := v; rw [List.map_cons, restText, dumpMembers, ih]; simp

/-- The value is written, or fails. -/
def Writes (level : ℕ) (v : PVal) : Prop :=
  OkOrBad Unwritable (fun v => dumpJson level (jsonOf v)) (writeJson level) v

theorem writes_arr (level : ℕ) {l : List PVal} (h : ∀ v ∈ l, Writes (level + 1) v) : Writes level (.arr l) := by
  cases l with
  | nil =>
    refine ⟨fun _ => by simp only [writeJson, jsonOf, jsonElems, dumpJson], ?_⟩
    intro hu
    cases hu with
    | elem hm _ => cases hm
  | cons v l =>
    have hv := h v List.mem_cons_self
    have hl : ∀ x ∈ l, Writes (level + 1) x := fun x hx => h x (List.mem_cons_of_mem _ hx)
    constructor
    · intro hu
      have h1 : ¬ Unwritable v := fun hh => hu (.elem List.mem_cons_self hh)
      have h2 : ∀ x ∈ l, writeJson (level + 1) x = .ok (dumpJson (level + 1) (jsonOf x)) :=
        fun x hx => (hl x hx).1 (fun hh => hu (.elem (List.mem_cons_of_mem _ hx) hh))
      rw [writeJson, hv.1 h1, writeElems_eq, writeRest_ok (level + 1) h2, ok_ok, ok_ok, ok_ok]
      simp only [jsonOf, jsonElems, dumpJson]
      rw [jsonElems_eq, ← restText_elems, List.map_map]
      simp [Function.comp_def]
    · intro hu
      rw [writeJson, writeElems_eq]
      by_cases h1 : Unwritable v
      · rw [bad_then (hv.2 h1)]
        exact (hang_then (hanging_arr _) (hv.2 h1)).bad
      · rw [hv.1 h1]
        have h2 : ∃ x ∈ l, Unwritable x := by
          cases hu with
          | elem hm hx =>
            rcases List.mem_cons.1 hm with rfl | hm
            · exact absurd hx h1
            · exact ⟨_, hm, hx⟩
        have h3 := writeRest_bad (level + 1) hl h2
        rw [bad_then h3.bad]
        exact (bad'_after _ (bad'_after _ h3)).bad

theorem writes_obj (level : ℕ) {l : List (PyKey × PVal)} (h : ∀ e ∈ l, Writes (level + 1) e.2) :
    Writes level (.obj l) := by
  cases l with
  | nil =>
    refine ⟨fun _ => by simp only [writeJson, jsonOf, jsonEntries, sortPyKeys, List.map_nil, dumpJson], ?_⟩
    intro hu
    cases hu with
    | keys hk => exact absurd (.inl (by simp)) hk
    | entry hm _ => cases hm
  | cons e0 l0 =>
    generalize hl : e0 :: l0 = l at h
    have hw : writeJson level (.obj l) = (Written.ok ('{' :: newline (level + 1))).andThen
        (writeBody level (sortPyKeys (writeEntries (level + 1) l))) := by
      rw [← hl, writeJson]
    have hs := sortPyKeys_map (writeJson (level + 1)) l
    have hj := sortPyKeys_map jsonOf l
    rw [← writeEntries_eq] at hs
    rw [← jsonEntries_eq] at hj
    rw [hs] at hw
    unfold Writes OkOrBad
    rw [hw]
    simp only [jsonOf]
    rw [hj]
    cases hp : sortPyKeys l with
    | error err =>
      obtain ⟨h1, h2⟩ := sortPyKeys_error hp
      subst h1
      refine ⟨fun hu => absurd (.keys h2) hu, fun _ => ?_⟩
      exact (hang_then (hanging_obj _) ⟨rfl, .inl rfl⟩).bad
    | ok l' =>
      have hperm := sortPyKeys_perm hp
      have hk := sortPyKeys_ok hp
      have hl' : ∀ e ∈ l', OkOrBad (fun e : PyKey × PVal => Unwritable e.2)
          (fun e => dumpString e.1.toStr ++ ':' :: ' ' :: dumpJson (level + 1) (jsonOf e.2))
          (fun e => writeEntry (e.1, writeJson (level + 1) e.2)) e := by
        intro e he
        have := h e (hperm.mem_iff.1 he)
        constructor
        · intro hu
          simp only [writeEntry]
          rw [this.1 hu, ok_ok]
          simp
        · intro hu
          exact (hang_then (hanging_key _) (this.2 hu)).bad
      have hu : Unwritable (.obj l) ↔ ∃ e ∈ l', Unwritable e.2 := by
        constructor
        · intro hu
          cases hu with
          | keys hk' => exact absurd hk hk'
          | entry hm hv => exact ⟨_, hperm.mem_iff.2 hm, hv⟩
        · rintro ⟨e, he, hv⟩
          exact .entry (hperm.mem_iff.1 he) hv
      cases l' with
      | nil =>
        have := hperm.length_eq
        rw [← hl] at this
        cases this
      | cons x xs =>
        simp only [Except.map, List.map_cons, List.map_map, writeBody]
        have hx := hl' x List.mem_cons_self
        have hx1 : ¬ Unwritable x.2 → writeEntry (x.1, writeJson (level + 1) x.2) = .ok _ := hx.1
        have hx2 : Unwritable x.2 → Bad (writeEntry (x.1, writeJson (level + 1) x.2)) := hx.2
        have hxs := fun e he => hl' e (List.mem_cons_of_mem x he)
        have hcomp : xs.map (writeEntry ∘ fun x => (x.1, writeJson (level + 1) x.2)) =
          xs.map (fun e => writeEntry (e.1, writeJson (level + 1) e.2)) := rfl
        rw [hcomp, hu]
        constructor
        · intro hn
          have h1 : ∀ e ∈ x :: xs, ¬ Unwritable e.2 := fun e he hv => hn ⟨e, he, hv⟩
          rw [hx1 (h1 x List.mem_cons_self),
            writeRest_ok (level + 1) (fun e he => (hxs e he).1 (h1 e (List.mem_cons_of_mem x he))),
            ok_ok, ok_ok, ok_ok, dumpJson, ← restText_members, List.map_map]
          simp [Function.comp_def]
        · rintro ⟨e, he, hv⟩
          by_cases h1 : Unwritable x.2
          · rw [bad_then (hx2 h1)]
            exact (hang_then (hanging_obj _) (hx2 h1)).bad
          · rw [hx1 h1]
            have h3 := writeRest_bad (level + 1) hxs (by
              rcases List.mem_cons.1 he with rfl | he
              · exact absurd hv h1
              · exact ⟨e, he, hv⟩)
            rw [bad_then h3.bad]
            exact (bad'_after _ (bad'_after _ h3)).bad

mutual
theorem writes (level : ℕ) : ∀ v : PVal, Writes level v
  | .null => ⟨fun _ => by simp only [writeJson, jsonOf, dumpJson], fun h => nomatch h⟩
  | .bool true => ⟨fun _ => by simp only [writeJson, jsonOf, dumpJson], fun h => nomatch h⟩
  | .bool false => ⟨fun _ => by simp only [writeJson, jsonOf, dumpJson], fun h => nomatch h⟩
  | .num n => ⟨fun _ => by simp only [writeJson, jsonOf, dumpJson], fun h => nomatch h⟩
  | .float r => ⟨fun _ => by simp only [writeJson, jsonOf, dumpJson], fun h => nomatch h⟩
  | .str s => ⟨fun _ => by simp only [writeJson, jsonOf, dumpJson], fun h => nomatch h⟩
  | .arr l => writes_arr level (writes_elems (level + 1) l)
  | .obj l => writes_obj level (writes_entries (level + 1) l)
  | .other => ⟨fun h => absurd .other h, fun _ => by rw [writeJson]; exact ⟨rfl, .inl rfl⟩⟩
theorem writes_elems (level : ℕ) : ∀ l : List PVal, ∀ v ∈ l, Writes level v
  | [] => fun _ h => nomatch h
  | v :: l => fun x hx => by
    rcases List.mem_cons.1 hx with h | h
    · rw [h]; exact writes level v
    · exact writes_elems level l x h
theorem writes_entries (level : ℕ) : ∀ l : List (PyKey × PVal), ∀ e ∈ l, Writes level e.2
  | [] => fun _ h => nomatch h
  | (k, v) :: l => fun x hx => by
    rcases List.mem_cons.1 hx with h | h
    · rw [h]; exact writes level v
    · exact writes_entries level l x h
end

/-! ## What is written -/

theorem toStr_inj {l : List PyKey} (h : OneKind l) {x y : PyKey} (hx : x ∈ l) (hy : y ∈ l)
    (hxy : x.toStr = y.toStr) : x = y := by
  rcases h with h | h
  · obtain ⟨m, rfl⟩ := h x hx
    obtain ⟨n, rfl⟩ := h y hy
    rw [intRepr_inj hxy]
  · obtain ⟨m, rfl⟩ := h x hx
    obtain ⟨n, rfl⟩ := h y hy
    rw [show m = n from hxy]

theorem toStr_nodup {l : List PyKey} (h : OneKind l) (hn : l.Nodup) : (l.map PyKey.toStr).Nodup :=
  List.Nodup.map_on (fun _ hx _ hy hxy => toStr_inj h hx hy hxy) hn

theorem asEntries_eq (l : List (PyKey × PVal)) : asEntries l = l.map (fun e => (e.1.toStr, asJson e.2)) := by
  induction l with
  | nil => rfl
  | cons e es ih => obtain ⟨k, v⟩ := e; rw [asEntries, ih]; rfl

theorem asElems_eq (l : List PVal) : asElems l = l.map asJson := by
  induction l with
  | nil => rfl
  | cons e es ih => rw [asElems, ih]; rfl

theorem pyVals_iff {F : Floats} {l : List PVal} : PyVals F l ↔ ∀ v ∈ l, PyVal F v := by
  induction l with
  | nil => exact ⟨fun _ _ h => (nomatch h), fun _ => .nil⟩
  | cons v l ih =>
    constructor
    · intro h
      cases h with
      | cons h1 h2 =>
        intro x hx
        rcases List.mem_cons.1 hx with rfl | hx
        · exact h1
        · exact ih.1 h2 x hx
    · intro h
      exact .cons (h v List.mem_cons_self) (ih.2 (fun x hx => h x (List.mem_cons_of_mem _ hx)))

theorem pyDict_iff {F : Floats} {l : List (PyKey × PVal)} : PyDict F l ↔ ∀ e ∈ l, PyVal F e.2 := by
  induction l with
  | nil => exact ⟨fun _ _ h => (nomatch h), fun _ => .nil⟩
  | cons e l ih =>
    obtain ⟨k, v⟩ := e
    constructor
    · intro h
      cases h with
      | cons h1 h2 =>
        intro x hx
        rcases List.mem_cons.1 hx with rfl | hx
        · exact h1
        · exact ih.1 h2 x hx
    · intro h
      exact .cons (h (k, v) List.mem_cons_self) (ih.2 (fun x hx => h x (List.mem_cons_of_mem _ hx)))

/-- What is in the file is a value of JSON, and is the value with its keys as strings. -/
def Faithfully (F : Floats) (v : PVal) : Prop :=
  PyVal F v → ¬ Unwritable v → PyJson F (jsonOf v) ∧ SameJson (jsonOf v) (asJson v)

theorem same_arr_of {F : Floats} {l : List PVal} (h : ∀ v ∈ l, Faithfully F v) : Faithfully F (.arr l) := by
  intro hp hu
  cases hp with
  | arr hp =>
    rw [pyVals_iff] at hp
    have hl : ∀ v ∈ l, PyJson F (jsonOf v) ∧ SameJson (jsonOf v) (asJson v) :=
      fun v hv => h v hv (hp v hv) (fun hh => hu (.elem hv hh))
    simp only [jsonOf, asJson]
    rw [jsonElems_eq, asElems_eq]
    constructor
    · refine .arr (pyElems_iff.2 ?_)
      intro w hw
      obtain ⟨v, hv, rfl⟩ := List.mem_map.1 hw
      exact (hl v hv).1
    · intro p
      cases p with
      | nil => simp [lookAt, shape]
      | cons st p =>
        cases st with
        | key k => rfl
        | idx i =>
          simp only [lookAt, List.getElem?_map]
          cases hi : l[i]? with
          | none => rfl
          | some v => exact (hl v (List.mem_of_getElem? hi)).2 p

theorem same_obj_of {F : Floats} {l : List (PyKey × PVal)} (h : ∀ e ∈ l, Faithfully F e.2) : Faithfully F (.obj l) := by
  intro hp hu
  cases hp with
  | obj hn hp =>
    rw [pyDict_iff] at hp
    have hl : ∀ e ∈ l, PyJson F (jsonOf e.2) ∧ SameJson (jsonOf e.2) (asJson e.2) :=
      fun e he => h e he (hp e he) (fun hh => hu (.entry he hh))
    have hk : OneKind (l.map Prod.fst) := by
      by_contra hk
      exact hu (.keys hk)
    obtain ⟨l', hs⟩ := sortPyKeys_ok_iff.2 hk
    have hperm := sortPyKeys_perm hs
    have hj := sortPyKeys_map jsonOf l
    rw [← jsonEntries_eq, hs] at hj
    have hjson : jsonOf (.obj l) = .obj (l'.map (fun e => (e.1.toStr, jsonOf e.2))) := by
      simp only [jsonOf]
      rw [hj]
      simp [Except.map]
    have hn1 : ((l'.map (fun e => (e.1.toStr, jsonOf e.2))).map Prod.fst).Nodup := by
      rw [List.map_map]
      have := toStr_nodup hk hn
      rw [List.map_map] at this
      exact ((hperm.map (PyKey.toStr ∘ Prod.fst)).nodup_iff).2 this
    have hn2 : ((l.map (fun e => (e.1.toStr, asJson e.2))).map Prod.fst).Nodup := by
      rw [List.map_map]
      have := toStr_nodup hk hn
      rw [List.map_map] at this
      exact this
    rw [hjson]
    simp only [asJson]
    rw [asEntries_eq]
    constructor
    · refine .obj hn1 (pyEntries_iff.2 ?_)
      intro w hw
      obtain ⟨e, he, rfl⟩ := List.mem_map.1 hw
      exact (hl e (hperm.mem_iff.1 he)).1
    · refine lookAt_obj_congr ?_
      intro k
      by_cases hx : ∃ e ∈ l, e.1.toStr = k
      · obtain ⟨e, he, rfl⟩ := hx
        refine .inr ⟨jsonOf e.2, asJson e.2, ?_, ?_, (hl e he).2⟩
        · exact dictGet_of_mem hn1 (List.mem_map.2 ⟨e, hperm.mem_iff.2 he, rfl⟩)
        · exact dictGet_of_mem hn2 (List.mem_map.2 ⟨e, he, rfl⟩)
      · refine .inl ⟨?_, ?_⟩
        · rw [dictGet_none_iff]
          intro w hw
          obtain ⟨e, he, rfl⟩ := List.mem_map.1 hw
          exact fun hh => hx ⟨e, hperm.mem_iff.1 he, hh⟩
        · rw [dictGet_none_iff]
          intro w hw
          obtain ⟨e, he, rfl⟩ := List.mem_map.1 hw
          exact fun hh => hx ⟨e, he, hh⟩

mutual
theorem same_val (F : Floats) : ∀ v : PVal, Faithfully F v
  | .null => fun _ _ => ⟨.null, same_refl _⟩
  | .bool b => fun _ _ => ⟨.bool b, same_refl _⟩
  | .num n => fun _ _ => ⟨.num n, same_refl _⟩
  | .float r => fun hp _ => by
    cases hp with
    | float h => exact ⟨.float h, same_refl _⟩
  | .str s => fun _ _ => ⟨.str s, same_refl _⟩
  | .arr l => same_arr_of (same_vals F l)
  | .obj l => same_obj_of (same_dict F l)
  | .other => fun _ hu => absurd .other hu
theorem same_vals (F : Floats) : ∀ l : List PVal, ∀ v ∈ l, Faithfully F v
  | [] => fun _ h => nomatch h
  | v :: l => fun x hx => by
    rcases List.mem_cons.1 hx with h | h
    · rw [h]; exact same_val F v
    · exact same_vals F l x h
theorem same_dict (F : Floats) : ∀ l : List (PyKey × PVal), ∀ e ∈ l, Faithfully F e.2
  | [] => fun _ h => nomatch h
  | (k, v) :: l => fun x hx => by
    rcases List.mem_cons.1 hx with h | h
    · rw [h]; exact same_val F v
    · exact same_dict F l x h
end

/-! ## Unfinished texts -/

theorem gap_last {g : Name} (hg : Gap g) {p p' g' : Name} {c c' : Char} (hg' : Gap g') (hc : ¬ Gap [c])
    (hc' : ¬ Gap [c']) (h : p ++ c :: g = p' ++ c' :: g') : c = c' := by
  have key : ∀ {x y r s : Name} {a b : Char}, Gap x → Gap y → ¬ Gap [a] → ¬ Gap [b] →
      x ++ a :: r = y ++ b :: s → a = b := by
    intro x
    induction x with
    | nil =>
      intro y r s a b _ hy ha hb h
      cases y with
      | nil => simp only [List.nil_append, List.cons.injEq] at h; exact h.1
      | cons z zs =>
        simp only [List.nil_append, List.cons_append, List.cons.injEq] at h
        exact absurd (by intro c hc; rw [List.mem_singleton.1 hc, h.1]; exact hy z List.mem_cons_self) ha
    | cons w ws ih =>
      intro y r s a b hx hy ha hb h
      cases y with
      | nil =>
        simp only [List.nil_append, List.cons_append, List.cons.injEq] at h
        exact absurd (by intro c hc; rw [List.mem_singleton.1 hc, ← h.1]; exact hx w List.mem_cons_self) hb
      | cons z zs =>
        simp only [List.cons_append, List.cons.injEq] at h
        exact ih (fun c hc => hx c (List.mem_cons_of_mem _ hc)) (fun c hc => hy c (List.mem_cons_of_mem _ hc))
          ha hb h.2
  have h1 := congrArg List.reverse h
  simp only [List.reverse_append, List.reverse_cons, List.append_assoc, List.singleton_append] at h1
  exact key (fun c hc => hg c (by simpa using hc)) (fun c hc => hg' c (by simpa using hc)) hc hc' h1

theorem not_gap {c : Char} (h : c ∉ [' ', '\t', '\n', '\r']) : ¬ Gap [c] := fun hg => h (hg c (by simp))

/-- What begins with a brace ends with one. -/
theorem text_brace {α : Type} [DecidableEq α] {B : Name → List α → Prop} {F : Floats} {t r : Name} {v : JV α}
    (h : JTextOf B F t v) (ht : t = '{' :: r) : ∃ q, t = q ++ ['}'] := by
  cases h with
  | emptyObj hg => exact ⟨_, rfl⟩
  | obj hm => exact ⟨_, rfl⟩
  | null => cases ht
  | true => cases ht
  | false => cases ht
  | str hb => cases ht
  | emptyArr hg => cases ht
  | arr hm => cases ht
  | word hw => rcases hw with rfl | rfl | rfl <;> cases ht
  | int hi =>
    exfalso
    obtain ⟨k, ⟨rfl, _⟩ | ⟨rfl, _⟩⟩ := hi
    · have := toDigits_digits k '{' (by rw [ht]; simp)
      revert this; decide
    · cases ht
  | float hf =>
    exfalso
    obtain ⟨sign, k, frac, exp, rfl, hs, _⟩ := hf
    rcases hs with rfl | rfl
    · obtain ⟨d, ds, hd, hdig, _⟩ := toDigits_cons k
      rw [hd] at ht
      simp only [List.nil_append, List.cons_append, List.cons.injEq] at ht
      rw [ht.1] at hdig
      revert hdig; decide
    · cases ht

theorem unfinished {α : Type} [DecidableEq α] {B : Name → List α → Prop} {F : Floats} {r : Name}
    (h : Hanging ('{' :: r)) (v : JV α) : ¬ JDocOf B F ('{' :: r) v := by
  rintro ⟨g, t, g', ht, hg, hv, hg'⟩
  obtain ⟨p, c, g2, hp, hg2, hc⟩ := h
  have hgn : g = [] := by
    cases g with
    | nil => rfl
    | cons x xs =>
      simp only [List.cons_append, List.cons.injEq] at ht
      have := hg x List.mem_cons_self
      rw [← ht.1] at this
      exact absurd this (by decide)
  subst hgn
  cases t with
  | nil =>
    cases g' with
    | nil => cases ht
    | cons x xs =>
      simp only [List.nil_append, List.cons.injEq] at ht
      have := hg' x List.mem_cons_self
      rw [← ht.1] at this
      exact absurd this (by decide)
  | cons x xs =>
    have hx : x = '{' := by simp only [List.nil_append, List.cons_append, List.cons.injEq] at ht; exact ht.1.symm
    obtain ⟨q, hq⟩ := text_brace hv (by rw [hx])
    rw [hq, hp] at ht
    have hcg : ¬ Gap [c] := not_gap (by rcases hc with rfl | rfl | rfl | rfl <;> decide)
    have := gap_last hg2 (p' := q) (c' := '}') hg' hcg (not_gap (by decide)) (by rw [ht]; simp)
    rcases hc with rfl | rfl | rfl | rfl <;> exact absurd this (by decide)

/-! ## Reading back -/

theorem same_leaf_str {w : JVal} {s : Name} (h : SameJson w (.str s)) : w = .str s := by
  have := same_shape h
  cases w <;> simp_all [shape]

theorem same_leaf_num {w : JVal} {n : ℤ} (h : SameJson w (.num n)) : w = .num n := by
  have := same_shape h
  cases w <;> simp_all [shape]

theorem same_is_obj {w : JVal} {l : List (Name × JVal)} (h : SameJson w (.obj l)) : ∃ l', w = .obj l' := by
  have := same_shape h
  cases w <;> simp_all [shape]

theorem same_is_arr {w : JVal} {l : List JVal} (h : SameJson w (.arr l)) : ∃ l', w = .arr l' := by
  have := same_shape h
  cases w <;> simp_all [shape]

theorem same_leaf_nums {w : JVal} {l : List ℤ} (h : SameJson w (.arr (l.map .num))) : w = .arr (l.map .num) := by
  obtain ⟨l', rfl⟩ := same_is_arr h
  obtain ⟨h1, h2⟩ := same_arr h
  congr 1
  refine List.ext_getElem h1 ?_
  intro i h3 h4
  have := h2 i _ _ (List.getElem?_eq_getElem h3) (List.getElem?_eq_getElem h4)
  simp only [List.getElem_map] at this ⊢
  exact same_leaf_num this

theorem asJson_seg_ints (t : Bool) (l : List Obj) :
    asJson (Seg.toPVal (.ints t l)) = .arr ((l.map Obj.val).map .num) := by
  simp only [Seg.toPVal, asJson]
  rw [asElems_eq, List.map_map, List.map_map]
  rfl

theorem same_seg {s : Seg} {w : JVal} (hs : ¬ Unwritable s.toPVal) (h : SameJson w (asJson s.toPVal))
    (t : List JVal) : TupleOf w t ↔ ReadBack s t := by
  cases s with
  | ints b l =>
    rw [asJson_seg_ints] at h
    rw [same_leaf_nums h]
    constructor
    · intro ht
      cases ht
      rw [List.map_map]
      exact .ints b l
    · intro ht
      cases ht
      have : (l.map (fun x => JV.num (α := Char) x.val)) = (l.map Obj.val).map .num := by rw [List.map_map]; rfl
      rw [this]
      exact .arr _
  | str s =>
    rw [same_leaf_str h]
    constructor
    · intro ht
      cases ht
      exact .str s
    · intro ht
      cases ht
      exact .str s
  | sets l =>
    cases l with
    | nil =>
      have : SameJson w (.arr (([] : List ℤ).map .num)) := h
      rw [same_leaf_nums this]
      constructor
      · intro ht
        cases ht
        exact .empty
      · intro ht
        cases ht
        exact .arr _
    | cons x l =>
      exact absurd (.elem (v := .other) (by simp) .other) hs

theorem get_named {α β : Type _} {l : List (PyKey × α)} (hk : OneKind (l.map Prod.fst))
    (hn : (l.map Prod.fst).Nodup) (g : α → β) (n : Name) (w : β) :
    dictGet (l.map (fun e => (e.1.toStr, g e.2))) n = some w ↔
      ∃ k v, dictGet l k = some v ∧ k.toStr = n ∧ w = g v := by
  have hn' : (dictKeys (l.map (fun e => (e.1.toStr, g e.2)))).Nodup := by
    have := toStr_nodup hk hn
    rw [List.map_map] at this
    simpa [dictKeys, Function.comp_def] using this
  rw [← mem_iff_dictGet hn']
  simp only [List.mem_map, Prod.mk.injEq]
  constructor
  · rintro ⟨e, he, h1, h2⟩
    exact ⟨e.1, e.2, dictGet_of_mem hn he, h1, h2.symm⟩
  · rintro ⟨k, v, h1, h2, h3⟩
    exact ⟨(k, v), dictGet_mem h1, h2, h3.symm⟩

theorem asJson_items (items : ItemsK) : asJson (itemsToPVal items) =
    .obj (items.map (fun it => (it.1.toStr, .obj (it.2.map (fun c => (c.1.toStr, asJson c.2.toPVal)))))) := by
  simp only [itemsToPVal, asJson]
  rw [asEntries_eq, List.map_map]
  congr 1
  refine List.map_congr_left ?_
  intro it _
  simp only [Function.comp, asJson]
  rw [asEntries_eq, List.map_map]
  rfl

theorem writable_items {items : ItemsK} (h : ¬ Unwritable (itemsToPVal items)) :
    OneKind (items.map Prod.fst) ∧
      ∀ it ∈ items, OneKind (it.2.map Prod.fst) ∧ ∀ c ∈ it.2, ¬ Unwritable c.2.toPVal := by
  constructor
  · by_contra hk
    refine h (.keys ?_)
    rw [List.map_map]
    exact hk
  · intro it hi
    constructor
    · by_contra hk
      refine h (.entry (k := it.1) (v := .obj (it.2.map (fun c => (c.1, c.2.toPVal))))
        (List.mem_map.2 ⟨it, hi, rfl⟩) (.keys ?_))
      rw [List.map_map]
      exact hk
    · intro c hc hu
      exact h (.entry (k := it.1) (v := .obj (it.2.map (fun c => (c.1, c.2.toPVal))))
        (List.mem_map.2 ⟨it, hi, rfl⟩) (.entry (List.mem_map.2 ⟨c, hc, rfl⟩) hu))

theorem items_back {items : ItemsK} (hd : IsDictK items) (h : ¬ Unwritable (itemsToPVal items))
    {its : List (Name × JVal)} (hs : SameJson (.obj its) (asJson (itemsToPVal items))) :
    (∀ l, (∃ v, dictGet its l = some v) ↔ ∃ k ∈ dictKeys items, k.toStr = l) ∧
    (∀ l m t, (∃ cs v, dictGet its l = some (.obj cs) ∧ dictGet cs m = some v ∧ TupleOf v t) ↔
      ∃ kl km cs s, dictGet items kl = some cs ∧ dictGet cs km = some s ∧ kl.toStr = l ∧ km.toStr = m ∧
        ReadBack s t) ∧
    ∀ l v, dictGet its l = some v → ∃ cs, v = .obj cs ∧ ∀ m w, dictGet cs m = some w → ∃ t, TupleOf w t := by
  rw [asJson_items] at hs
  obtain ⟨hk, hin⟩ := writable_items h
  have outer := fun l => same_obj hs l
  have getO := fun l w => get_named hk hd.1 (fun cs : CodingsK =>
    JV.obj (α := Char) (cs.map (fun c => (c.1.toStr, asJson c.2.toPVal)))) l w
  have inner : ∀ {kl cs}, dictGet items kl = some cs → ∀ m w,
      dictGet (cs.map (fun c => (c.1.toStr, asJson c.2.toPVal))) m = some w ↔
        ∃ k v, dictGet cs k = some v ∧ k.toStr = m ∧ w = asJson v.toPVal := by
    intro kl cs hg m w
    have hm := dictGet_mem hg
    exact get_named (hin _ hm).1 (hd.2 _ hm) (fun s : Seg => asJson s.toPVal) m w
  have readable : ∀ s : Seg, ¬ Unwritable s.toPVal → ∃ t, ReadBack s t := by
    intro s hs
    cases s with
    | ints b l => exact ⟨_, .ints b l⟩
    | str s => exact ⟨_, .str s⟩
    | sets l =>
      cases l with
      | nil => exact ⟨_, .empty⟩
      | cons x l => exact absurd (.elem (v := .other) (by simp) .other) hs
  refine ⟨?_, ?_, ?_⟩
  · intro l
    constructor
    · rintro ⟨v, hv⟩
      rcases outer l with ⟨h1, _⟩ | ⟨v', w, h1, h2, _⟩
      · rw [hv] at h1; cases h1
      · obtain ⟨k, cs, h3, h4, _⟩ := (getO l w).1 h2
        exact ⟨k, mem_dictKeys.2 ⟨cs, h3⟩, h4⟩
    · rintro ⟨k, hk', h4⟩
      obtain ⟨cs, h3⟩ := mem_dictKeys.1 hk'
      have h2 := (getO l _).2 ⟨k, cs, h3, h4, rfl⟩
      rcases outer l with ⟨_, h1⟩ | ⟨v', w, h1, _, _⟩
      · rw [h2] at h1; cases h1
      · exact ⟨v', h1⟩
  · intro l m t
    constructor
    · rintro ⟨cs, v, h1, h2, h3⟩
      rcases outer l with ⟨h4, _⟩ | ⟨v', w, h4, h5, h6⟩
      · rw [h1] at h4; cases h4
      · rw [h1] at h4
        cases h4
        obtain ⟨kl, cs', h7, h8, rfl⟩ := (getO l w).1 h5
        rcases same_obj h6 m with ⟨h9, _⟩ | ⟨v', w, h9, h10, h11⟩
        · rw [h2] at h9; cases h9
        · rw [h2] at h9
          cases h9
          obtain ⟨km, s, h12, h13, rfl⟩ := (inner h7 m w).1 h10
          exact ⟨kl, km, cs', s, h7, h12, h8, h13,
            (same_seg ((hin _ (dictGet_mem h7)).2 _ (dictGet_mem h12)) h11 t).1 h3⟩
    · rintro ⟨kl, km, cs, s, h7, h12, h8, h13, h3⟩
      have h5 := (getO l _).2 ⟨kl, cs, h7, h8, rfl⟩
      rcases outer l with ⟨_, h4⟩ | ⟨v', w, h4, h5', h6⟩
      · rw [h5] at h4; cases h4
      · rw [h5] at h5'
        cases h5'
        obtain ⟨cs', rfl⟩ := same_is_obj h6
        have h10 := (inner h7 m _).2 ⟨km, s, h12, h13, rfl⟩
        rcases same_obj h6 m with ⟨_, h9⟩ | ⟨v', w, h9, h10', h11⟩
        · rw [h10] at h9; cases h9
        · rw [h10] at h10'
          cases h10'
          exact ⟨cs', v', h4, h9, (same_seg ((hin _ (dictGet_mem h7)).2 _ (dictGet_mem h12)) h11 t).2 h3⟩
  · intro l v hv
    rcases outer l with ⟨h1, _⟩ | ⟨v', w, h1, h2, h6⟩
    · rw [hv] at h1; cases h1
    · rw [hv] at h1
      cases h1
      obtain ⟨kl, cs', h7, h8, rfl⟩ := (getO l w).1 h2
      obtain ⟨cs, rfl⟩ := same_is_obj h6
      refine ⟨cs, rfl, ?_⟩
      intro m w hw
      rcases same_obj h6 m with ⟨h9, _⟩ | ⟨v', w', h9, h10, h11⟩
      · rw [hw] at h9; cases h9
      · rw [hw] at h9
        cases h9
        obtain ⟨km, s, h12, h13, rfl⟩ := (inner h7 m w').1 h10
        have hs' := (hin _ (dictGet_mem h7)).2 _ (dictGet_mem h12)
        obtain ⟨t, ht⟩ := readable s hs'
        exact ⟨t, (same_seg hs' h11 t).2 ht⟩

theorem outputK_get {d : DatasetK} (hp : (d.properties.map Prod.fst).Nodup)
    (hi : dictGet d.properties (.str kItems) = none)
    (hs : ∀ v, dictGet d.properties (.str kSegType) = some v → v = .str kLinear) (k : PyKey) :
    dictGet (dictUpdate (dictSet [(.str kSegType, .str kLinear)] (.str kItems) (itemsToPVal d.items))
      d.properties) k =
      if k = .str kItems then some (itemsToPVal d.items)
      else dictGet (dictSet d.properties (.str kSegType) (.str kLinear)) k := by
  rw [dictUpdate_get _ _ hp, dictGet_set, dictGet_set]
  by_cases h1 : k = .str kItems
  · subst h1
    simp [hi]
  · rw [if_neg h1, if_neg h1]
    by_cases h2 : k = .str kSegType
    · subst h2
      simp only [if_true]
      cases hc : dictGet d.properties (.str kSegType) with
      | none => rfl
      | some v => rw [hs v hc]; rfl
    · rw [if_neg h2]
      have : dictGet [(PyKey.str kSegType, PVal.str kLinear)] k = none := by
        rw [dictGet, if_neg (fun h => h2 h.symm)]; rfl
      rw [this, Option.or_none]

theorem outputK_nodup (d : DatasetK) :
    (dictKeys (dictUpdate (dictSet [(.str kSegType, .str kLinear)] (.str kItems) (itemsToPVal d.items))
      d.properties)).Nodup :=
  dictUpdate_nodup _ _ (keys_set_nodup _ _ _ (by simp [dictKeys]))

theorem unwritable_items_iff (items : ItemsK) : Unwritable (itemsToPVal items) ↔
    ¬ OneKind (dictKeys items) ∨
      ∃ it ∈ items, ¬ OneKind (dictKeys it.2) ∨ ∃ c ∈ it.2, ∃ l, l ≠ [] ∧ c.2 = .sets l := by
  have seg : ∀ s : Seg, Unwritable s.toPVal ↔ ∃ l, l ≠ [] ∧ s = .sets l := by
    intro s
    cases s with
    | ints b l =>
      constructor
      · intro h
        cases h with
        | elem hm hu =>
          obtain ⟨x, _, rfl⟩ := List.mem_map.1 hm
          cases hu
      · rintro ⟨l, _, h⟩; cases h
    | str s =>
      constructor
      · intro h; cases h
      · rintro ⟨l, _, h⟩; cases h
    | sets l =>
      cases l with
      | nil =>
        constructor
        · intro h
          cases h with
          | elem hm hu => cases hm
        · rintro ⟨l, h1, h⟩
          cases h
          exact absurd rfl h1
      | cons x l => exact ⟨fun _ => ⟨_, by simp, rfl⟩, fun _ => .elem (v := .other) (by simp) .other⟩
  constructor
  · intro h
    by_contra hc
    push Not at hc
    obtain ⟨hk, hi⟩ := hc
    cases h with
    | keys h =>
      rw [List.map_map] at h
      exact h hk
    | entry hm hu =>
      obtain ⟨it, hit, he⟩ := List.mem_map.1 hm
      cases he
      cases hu with
      | keys h =>
        rw [List.map_map] at h
        exact h (hi it hit).1
      | entry hm hu =>
        obtain ⟨c, hc, he⟩ := List.mem_map.1 hm
        cases he
        obtain ⟨l, h1, h2⟩ := (seg _).1 hu
        exact (hi it hit).2 c hc l h1 h2
  · intro h
    by_contra hu
    obtain ⟨hk, hi⟩ := writable_items hu
    rcases h with h | ⟨it, hit, h | ⟨c, hc, h⟩⟩
    · exact h hk
    · exact h (hi it hit).1
    · exact (hi it hit).2 c hc ((seg _).2 h)

/-- The saved document cannot be written exactly if items or properties cannot. -/
theorem outputK_unwritable {d : DatasetK} (hp : (d.properties.map Prod.fst).Nodup)
    (hi : dictGet d.properties (.str kItems) = none) :
    Unwritable (outputDataK d) ↔ Unwritable (itemsToPVal d.items) ∨
      ∃ e ∈ d.properties, (∃ n, e.1 = .int n) ∨ Unwritable e.2 := by
  have hn := outputK_nodup d
  have hI : (PyKey.str kItems, itemsToPVal d.items) ∈
      dictUpdate (dictSet [(.str kSegType, .str kLinear)] (.str kItems) (itemsToPVal d.items)) d.properties := by
    refine dictGet_mem ?_
    rw [dictUpdate_get _ _ hp, hi, dictGet_set, if_pos rfl]
    rfl
  have hP : ∀ e ∈ d.properties, e ∈
      dictUpdate (dictSet [(.str kSegType, .str kLinear)] (.str kItems) (itemsToPVal d.items)) d.properties := by
    intro e he
    refine dictGet_mem (k := e.1) (v := e.2) ?_
    rw [dictUpdate_get _ _ hp, dictGet_of_mem hp he]
    rfl
  have hM : ∀ e ∈ dictUpdate (dictSet [(.str kSegType, .str kLinear)] (.str kItems) (itemsToPVal d.items))
      d.properties, e ∈ d.properties ∨ e = (.str kItems, itemsToPVal d.items) ∨ e = (.str kSegType, .str kLinear) := by
    intro e he
    rcases mem_dictUpdate he with he | he
    · exact Or.inl he
    · rcases mem_dictSet_or he with he | he
      · exact Or.inr (Or.inl he)
      · exact Or.inr (Or.inr (by simpa using he))
  constructor
  · intro h
    by_contra hc
    push Not at hc
    obtain ⟨h1, h2⟩ := hc
    cases h with
    | keys h =>
      refine h (Or.inr ?_)
      intro k hk
      obtain ⟨e, he, rfl⟩ := List.mem_map.1 hk
      rcases hM e he with he | rfl | rfl
      · cases hek : e.1 with
        | int n => exact absurd hek ((h2 e he).1 n)
        | str s => exact ⟨s, rfl⟩
      · exact ⟨_, rfl⟩
      · exact ⟨_, rfl⟩
    | entry hm hu =>
      rcases hM _ hm with he | he | he
      · exact (h2 _ he).2 hu
      · cases he; exact h1 hu
      · cases he; cases hu
  · rintro (h | ⟨e, he, ⟨n, hn'⟩ | h⟩)
    · exact .entry hI h
    · refine .keys ?_
      rintro (h | h)
      · obtain ⟨m, hm⟩ := h _ (List.mem_map.2 ⟨_, hI, rfl⟩)
        cases hm
      · obtain ⟨m, hm⟩ := h _ (List.mem_map.2 ⟨_, hP e he, rfl⟩)
        rw [hn'] at hm
        cases hm
    · exact .entry (k := e.1) (v := e.2) (hP e he) h

theorem pyVal_items {F : Floats} {items : ItemsK} (hd : IsDictK items) : PyVal F (itemsToPVal items) := by
  refine .obj ?_ (pyDict_iff.2 ?_)
  · rw [List.map_map]
    exact hd.1
  · intro e he
    obtain ⟨it, hit, rfl⟩ := List.mem_map.1 he
    refine .obj ?_ (pyDict_iff.2 ?_)
    · rw [List.map_map]
      exact hd.2 it hit
    · intro e he
      obtain ⟨c, _, rfl⟩ := List.mem_map.1 he
      cases c.2 with
      | ints b l =>
        refine .arr (pyVals_iff.2 ?_)
        intro v hv
        obtain ⟨x, _, rfl⟩ := List.mem_map.1 hv
        exact .num _
      | str s => exact .str s
      | sets l =>
        refine .arr (pyVals_iff.2 ?_)
        intro v hv
        obtain ⟨x, _, rfl⟩ := List.mem_map.1 hv
        exact .other

theorem pyVal_output {F : Floats} {d : DatasetK} (hd : IsDictK d.items) (hp : PyVal F (.obj d.properties)) :
    PyVal F (outputDataK d) := by
  refine .obj (outputK_nodup d) (pyDict_iff.2 ?_)
  intro e he
  rcases mem_dictUpdate he with he | he
  · cases hp with
    | obj _ hp => exact pyDict_iff.1 hp e he
  · rcases mem_dictSet_or he with he | he
    · rw [he]; exact pyVal_items hd
    · have : e = (.str kSegType, .str kLinear) := by simpa using he
      rw [this]; exact .str _

/-- The entries of a document whose keys are strings. -/
theorem get_asEntries {l : List (PyKey × PVal)} (hk : ∀ e ∈ l, ∃ s, e.1 = .str s)
    (k : Name) : dictGet (asEntries l) k = (dictGet l (.str k)).map asJson := by
  rw [asEntries_eq]
  induction l with
  | nil => rfl
  | cons e l ih =>
    obtain ⟨s, hs⟩ := hk e (by simp)
    obtain ⟨k0, v⟩ := e
    cases hs
    simp only [List.map_cons, dictGet, PyKey.toStr, PyKey.str.injEq]
    split
    · rfl
    · exact ih (fun e he => hk e (by simp [he]))

theorem outputK_doc (F : Floats) {d : DatasetK} (hd : IsDictK d.items) (hp : PyVal F (.obj d.properties))
    (hf : (outputLinearMassJson d).failed = none) :
    ¬ Unwritable (outputDataK d) ∧
    ∃ v, JText F (outputLinearMassJson d).text v ∧ SameJson v (asJson (outputDataK d)) := by
  have hu : ¬ Unwritable (outputDataK d) := by
    intro hu
    have := ((writes 0 (outputDataK d)).2 hu).1
    unfold outputLinearMassJson at hf
    rw [hf] at this
    cases this
  obtain ⟨h1, h2⟩ := same_val F _ (pyVal_output hd hp) hu
  refine ⟨hu, _, ?_, h2⟩
  unfold outputLinearMassJson
  rw [(writes 0 (outputDataK d)).1 hu]
  exact dump_text F 0 _ h1

theorem outputK_failed (d : DatasetK) : (outputLinearMassJson d).failed ≠ none ↔ Unwritable (outputDataK d) := by
  unfold outputLinearMassJson
  constructor
  · intro h
    by_contra hu
    rw [(writes 0 (outputDataK d)).1 hu] at h
    exact h rfl
  · intro h
    rw [((writes 0 (outputDataK d)).2 h).1]
    simp

end SegEval
