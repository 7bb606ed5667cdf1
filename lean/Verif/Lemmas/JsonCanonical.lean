import Verif.Lemmas.JsonDump
import Verif.Lemmas.JsonLines

/-!
# The text of a JSON value depends on its content only
-/

namespace SegEval

open Spec

/-! ## Values that Python can hold -/

theorem pyElems_iff {F : Floats} {l : List JVal} : PyElems F l ↔ ∀ v ∈ l, PyJson F v := by
  induction l with
  | nil => exact ⟨fun _ => by simp, fun _ => .nil⟩
  | cons x l ih =>
    constructor
    · intro h
      cases h with
      | cons h1 h2 =>
        intro v hv
        rcases List.mem_cons.1 hv with rfl | hv
        · exact h1
        · exact ih.1 h2 v hv
    · intro h
      exact .cons (h x (by simp)) (ih.2 (fun v hv => h v (by simp [hv])))

theorem pyEntries_iff {F : Floats} {l : List (Name × JVal)} : PyEntries F l ↔ ∀ e ∈ l, PyJson F e.2 := by
  induction l with
  | nil => exact ⟨fun _ => by simp, fun _ => .nil⟩
  | cons x l ih =>
    constructor
    · intro h
      cases h with
      | cons h1 h2 =>
        intro v hv
        rcases List.mem_cons.1 hv with rfl | hv
        · exact h1
        · exact ih.1 h2 v hv
    · intro h
      exact .cons (h x (by simp)) (ih.2 (fun v hv => h v (by simp [hv])))

theorem mem_insertEntry {e x : Name × JVal} {l : List (Name × JVal)} :
    x ∈ insertEntry e l ↔ x = e ∨ x ∈ l := by
  induction l with
  | nil => simp [insertEntry]
  | cons y l ih =>
    rw [insertEntry]
    split_ifs
    · rw [List.mem_cons, ih, List.mem_cons]; tauto
    · rw [List.mem_cons]

theorem mem_sortEntries {x : Name × JVal} {l : List (Name × JVal)} :
    x ∈ sortEntries l ↔ ∃ e ∈ l, x = (e.1, sortKeys e.2) := by
  induction l with
  | nil => simp [sortEntries]
  | cons y l ih =>
    obtain ⟨k, v⟩ := y
    rw [sortEntries, mem_insertEntry, ih]
    simp

mutual
theorem sort_py (F : Floats) : ∀ v : JVal, PyJson F v → PyJson F (sortKeys v)
  | .null, _ => by rw [sortKeys]; exact .null
  | .bool b, _ => by rw [sortKeys]; exact .bool b
  | .num n, _ => by rw [sortKeys]; exact .num n
  | .float r, h => by rw [sortKeys]; exact h
  | .str s, _ => by rw [sortKeys]; exact .str s
  | .arr l, h => by
    cases h with
    | arr h => rw [sortKeys]; exact .arr (sort_elems F l h)
  | .obj l, h => by
    cases h with
    | obj hn h =>
      rw [sortKeys]
      exact .obj ((sortEntries_keys l).nodup_iff.2 hn) (sort_entries F l h)
theorem sort_elems (F : Floats) : ∀ l : List JVal, PyElems F l → PyElems F (sortAll l)
  | [], _ => by rw [sortAll]; exact .nil
  | v :: l, h => by
    cases h with
    | cons h1 h2 => rw [sortAll]; exact .cons (sort_py F v h1) (sort_elems F l h2)
theorem sort_entries (F : Floats) : ∀ l : List (Name × JVal), PyEntries F l → PyEntries F (sortEntries l)
  | [], _ => by rw [sortEntries]; exact .nil
  | (k, v) :: l, h => by
    cases h with
    | cons h1 h2 =>
      have i1 := sort_py F v h1
      have i2 := pyEntries_iff.1 (sort_entries F l h2)
      rw [sortEntries, pyEntries_iff]
      intro e he
      rcases mem_insertEntry.1 he with rfl | he
      · exact i1
      · exact i2 e he
end

theorem mem_dictSet_or {κ α : Type _} [DecidableEq κ] {d : List (κ × α)} {k : κ} {v : α} {x : κ × α}
    (h : x ∈ dictSet d k v) : x = (k, v) ∨ x ∈ d := by
  induction d with
  | nil => simp only [dictSet, List.mem_singleton] at h; exact Or.inl h
  | cons y d ih =>
    rw [dictSet] at h
    split_ifs at h with hk
    · rcases List.mem_cons.1 h with rfl | h
      · left; rw [hk]
      · exact Or.inr (by simp [h])
    · rcases List.mem_cons.1 h with rfl | h
      · exact Or.inr (by simp)
      · rcases ih h with h | h
        · exact Or.inl h
        · exact Or.inr (by simp [h])

theorem mem_dictUpdate {κ α : Type _} [DecidableEq κ] {e : List (κ × α)} : ∀ {d : List (κ × α)} {x : κ × α},
    x ∈ dictUpdate d e → x ∈ e ∨ x ∈ d := by
  induction e with
  | nil => intro d x h; exact Or.inr h
  | cons p e ih =>
    intro d x h
    rcases ih (d := dictSet d p.1 p.2) h with h | h
    · exact Or.inl (by simp [h])
    · rcases mem_dictSet_or h with h | h
      · exact Or.inl (by rw [h]; simp)
      · exact Or.inr h

theorem items_py (F : Floats) {items : List (Name × List (Name × List ℤ))} (hd : IsDict2 items) :
    PyJson F (itemsToJson items) := by
  unfold itemsToJson
  refine .obj (by simpa [Function.comp_def] using hd.1) (pyEntries_iff.2 ?_)
  intro e he
  obtain ⟨it, hit, rfl⟩ := List.mem_map.1 he
  refine .obj (by simpa [Function.comp_def] using hd.2 it hit) (pyEntries_iff.2 ?_)
  intro e' he'
  obtain ⟨c, _, rfl⟩ := List.mem_map.1 he'
  refine .arr (pyElems_iff.2 ?_)
  intro v hv
  obtain ⟨n, _, rfl⟩ := List.mem_map.1 hv
  exact .num n

theorem output_py (F : Floats) {d : DS (List ℤ)} (hd : IsDict2 d.items)
    (hp : PyJson F (.obj d.properties)) : PyJson F (outputData d) := by
  cases hp with
  | obj hn hp =>
    unfold outputData
    refine .obj ?_ (pyEntries_iff.2 ?_)
    · apply dictUpdate_nodup
      exact keys_set_nodup _ _ _ (by simp [dictKeys])
    · intro e he
      rcases mem_dictUpdate he with he | he
      · exact pyEntries_iff.1 hp e he
      · rcases mem_dictSet_or he with rfl | he
        · exact items_py F hd
        · rw [List.mem_singleton.1 he]
          exact .str _

/-! ## Order of keys -/

theorem name_trans {a b c : Name} (h : a < b) (h' : b < c) : a < c := List.lt_trans h h'

theorem name_irrefl (a : Name) : ¬ a < a := List.lt_irrefl a

theorem name_total {a b : Name} (h : ¬ a < b) (h' : a ≠ b) : b < a := by
  by_contra hc
  exact h' (List.le_antisymm hc h)

/-- The keys increase. -/
def Increasing (l : List (Name × JVal)) : Prop := l.Pairwise (fun a b => a.1 < b.1)

theorem insertEntry_increasing {e : Name × JVal} {l : List (Name × JVal)} (h : Increasing l)
    (hn : ∀ x ∈ l, x.1 ≠ e.1) : Increasing (insertEntry e l) := by
  induction l with
  | nil => exact List.pairwise_singleton _ _
  | cons y l ih =>
    rw [Increasing, List.pairwise_cons] at h
    rw [insertEntry]
    split_ifs with hy
    · rw [Increasing, List.pairwise_cons]
      refine ⟨?_, ih h.2 (fun x hx => hn x (by simp [hx]))⟩
      intro x hx
      rcases mem_insertEntry.1 hx with rfl | hx
      · exact hy
      · exact h.1 x hx
    · have hey : e.1 < y.1 := name_total hy (hn y (by simp))
      rw [Increasing, List.pairwise_cons]
      refine ⟨?_, List.pairwise_cons.2 h⟩
      intro x hx
      rcases List.mem_cons.1 hx with rfl | hx
      · exact hey
      · exact name_trans hey (h.1 x hx)

theorem sortEntries_increasing {l : List (Name × JVal)} (h : (l.map Prod.fst).Nodup) :
    Increasing (sortEntries l) := by
  induction l with
  | nil => rw [sortEntries]; exact List.Pairwise.nil
  | cons e l ih =>
    obtain ⟨k, v⟩ := e
    rw [List.map_cons, List.nodup_cons] at h
    rw [sortEntries]
    refine insertEntry_increasing (ih h.2) ?_
    intro x hx he
    obtain ⟨y, hy, rfl⟩ := mem_sortEntries.1 hx
    exact h.1 (List.mem_map.2 ⟨y, hy, he⟩)

theorem increasing_ext {l l' : List (Name × JVal)} (h : Increasing l) (h' : Increasing l')
    (hg : ∀ k, dictGet l k = dictGet l' k) : l = l' := by
  induction l generalizing l' with
  | nil =>
    cases l' with
    | nil => rfl
    | cons e l' =>
      have := hg e.1
      simp [dictGet] at this
  | cons e l ih =>
    cases l' with
    | nil =>
      have := hg e.1
      simp [dictGet] at this
    | cons e' l' =>
      rw [Increasing, List.pairwise_cons] at h h'
      have key : ∀ {x : Name × JVal} {m : List (Name × JVal)} {k : Name} {v : JVal},
          (∀ y ∈ m, x.1 < y.1) → dictGet (x :: m) k = some v → k = x.1 ∨ x.1 < k := by
        intro x m k v hm hk
        rw [dictGet] at hk
        split_ifs at hk with hx
        · exact Or.inl hx.symm
        · exact Or.inr (hm (k, v) (dictGet_mem hk))
      have hk : e.1 = e'.1 := by
        have h1 : dictGet (e' :: l') e.1 = some e.2 := by rw [← hg, dictGet, if_pos rfl]
        have h2 : dictGet (e :: l) e'.1 = some e'.2 := by rw [hg, dictGet, if_pos rfl]
        rcases key h'.1 h1 with h1 | h1
        · exact h1
        · rcases key h.1 h2 with h2 | h2
          · exact h2.symm
          · exact absurd (name_trans h1 h2) (name_irrefl _)
      have hv : e.2 = e'.2 := by
        have := hg e.1
        rw [dictGet, if_pos rfl, dictGet, if_pos hk.symm] at this
        exact Option.some.inj this
      have he : e = e' := Prod.ext hk hv
      subst he
      rw [ih h.2 h'.2]
      intro k
      by_cases hke : e.1 = k
      · have h1 : ∀ {m : List (Name × JVal)}, (∀ y ∈ m, e.1 < y.1) → dictGet m k = none := by
          intro m hm
          rw [dictGet_none_iff]
          intro y hy hyk
          have := hm y hy
          rw [hyk, hke] at this
          exact name_irrefl _ this
        rw [h1 h.1, h1 h'.1]
      · have := hg k
        rwa [dictGet, if_neg hke, dictGet, if_neg hke] at this

theorem same_obj {l l' : List (Name × JVal)} (h : SameJson (.obj l) (.obj l')) (k : Name) :
    (dictGet l k = none ∧ dictGet l' k = none) ∨
      ∃ v w, dictGet l k = some v ∧ dictGet l' k = some w ∧ SameJson v w := by
  cases h1 : dictGet l k with
  | none =>
    cases h2 : dictGet l' k with
    | none => exact Or.inl ⟨rfl, rfl⟩
    | some w =>
      have := h [.key k]
      simp [lookAt, h1, h2] at this
  | some v =>
    cases h2 : dictGet l' k with
    | none =>
      have := h [.key k]
      simp [lookAt, h1, h2] at this
    | some w =>
      refine Or.inr ⟨v, w, rfl, rfl, ?_⟩
      intro p
      have := h (.key k :: p)
      simpa [lookAt, h1, h2] using this

theorem same_arr {l l' : List JVal} (h : SameJson (.arr l) (.arr l')) :
    l.length = l'.length ∧ ∀ (i : ℕ) (v w : JVal), l[i]? = some v → l'[i]? = some w → SameJson v w := by
  constructor
  · have := h []
    simpa [lookAt, shape] using this
  · intro i v w h1 h2 p
    have := h (.idx i :: p)
    simpa [lookAt, h1, h2] using this

theorem same_shape {v w : JVal} (h : SameJson v w) : shape v = shape w := by
  have := h []
  simpa [lookAt] using this

theorem sizeOf_mem_arr {v : JVal} {l : List JVal} (h : v ∈ l) : sizeOf v < sizeOf (JV.arr l) := by
  have := List.sizeOf_lt_of_mem h
  simp only [JV.arr.sizeOf_spec]
  omega

theorem sizeOf_mem_obj {k : Name} {v : JVal} {l : List (Name × JVal)} (h : (k, v) ∈ l) :
    sizeOf v < sizeOf (JV.obj l) := by
  have := List.sizeOf_lt_of_mem h
  simp only [JV.obj.sizeOf_spec]
  have h2 : sizeOf ((k, v) : Name × JVal) = 1 + sizeOf k + sizeOf v := rfl
  omega

/-- Equal content, equal text. -/
theorem sort_canonical (F : Floats) : ∀ (n : ℕ) {v w : JVal}, sizeOf v < n → PyJson F v → PyJson F w →
    SameJson v w → sortKeys v = sortKeys w := by
  intro n
  induction n with
  | zero => intro v w hn; omega
  | succ n ih =>
    intro v w hn hv hw h
    have hs := same_shape h
    cases hv with
    | null => cases w <;> cases hs; rfl
    | bool => cases w <;> cases hs; rfl
    | num => cases w <;> cases hs; rfl
    | float => cases w <;> cases hs; rfl
    | str => cases w <;> cases hs; rfl
    | @arr l hv =>
      cases hw with
      | @arr l' hw =>
        obtain ⟨h1, h2⟩ := same_arr h
        rw [sortKeys, sortKeys, sortAll_eq, sortAll_eq]
        congr 1
        apply List.ext_getElem?
        intro i
        rw [List.getElem?_map, List.getElem?_map]
        by_cases hi : i < l.length
        · have e1 : l[i]? = some l[i] := List.getElem?_eq_getElem hi
          have e2 : l'[i]? = some (l'[i]'(h1 ▸ hi)) := List.getElem?_eq_getElem _
          rw [e1, e2, Option.map_some, Option.map_some]
          have hm := List.getElem_mem hi
          have := sizeOf_mem_arr hm
          rw [ih (by omega) (pyElems_iff.1 hv _ hm) (pyElems_iff.1 hw _ (List.getElem_mem _))
            (h2 i _ _ e1 e2)]
        · rw [List.getElem?_eq_none (by omega), List.getElem?_eq_none (by omega)]
      | _ => cases hs
    | @obj l hn1 hv =>
      cases hw with
      | @obj l' hn2 hw =>
        rw [sortKeys, sortKeys]
        congr 1
        refine increasing_ext (sortEntries_increasing hn1) (sortEntries_increasing hn2) ?_
        intro k
        rw [sortEntries_get, sortEntries_get]
        rcases same_obj h k with ⟨e1, e2⟩ | ⟨x, y, e1, e2, hxy⟩
        · rw [e1, e2]
        · rw [e1, e2, Option.map_some, Option.map_some]
          have hm := dictGet_mem e1
          have := sizeOf_mem_obj hm
          rw [ih (show sizeOf x < n by omega) (pyEntries_iff.1 hv _ hm) (pyEntries_iff.1 hw _ (dictGet_mem e2)) hxy]
      | _ => cases hs

theorem sort_eq_iff (F : Floats) {v w : JVal} (hv : PyJson F v) (hw : PyJson F w) :
    sortKeys v = sortKeys w ↔ SameJson v w := by
  constructor
  · intro h p
    rw [← lookAt_sortKeys p v, h, lookAt_sortKeys]
  · exact fun h => sort_canonical F _ (Nat.lt_succ_self _) hv hw h

/-! ## ASCII -/

/-- A printable ASCII character or a line end. -/
def Plain (w : Name) : Prop := ∀ c ∈ w, c = '\n' ∨ (32 ≤ c.toNat ∧ c.toNat ≤ 126)

theorem plain_append {a b : Name} (ha : Plain a) (hb : Plain b) : Plain (a ++ b) := by
  intro c hc
  rcases List.mem_append.1 hc with hc | hc
  · exact ha c hc
  · exact hb c hc

theorem plain_cons {c : Char} {b : Name} (hc : 32 ≤ c.toNat ∧ c.toNat ≤ 126) (hb : Plain b) : Plain (c :: b) := by
  intro x hx
  rcases List.mem_cons.1 hx with rfl | hx
  · exact Or.inr hc
  · exact hb x hx

theorem plain_nil : Plain [] := by intro c hc; cases hc

theorem plain_newline (level : ℕ) : Plain (newline level) := by
  intro c hc
  unfold newline at hc
  rcases List.mem_cons.1 hc with rfl | hc
  · exact Or.inl rfl
  · rw [List.eq_of_mem_replicate hc]; decide

theorem plain_digit {c : Char} (h : c.isDigit = true) : 32 ≤ c.toNat ∧ c.toNat ≤ 126 := by
  obtain ⟨h1, _, h3⟩ := digit_char h
  omega

theorem plain_digits {w : Name} (h : ∀ c ∈ w, c.isDigit = true) : Plain w :=
  fun c hc => Or.inr (plain_digit (h c hc))

theorem plain_hex (n : ℕ) : Plain (hexRepr n) := by
  have : ∀ d < 16, 32 ≤ (Nat.digitChar d).toNat ∧ (Nat.digitChar d).toNat ≤ 126 := by decide +kernel
  unfold hexRepr
  refine plain_cons (this _ (Nat.mod_lt _ (by decide))) (plain_cons (this _ (Nat.mod_lt _ (by decide)))
    (plain_cons (this _ (Nat.mod_lt _ (by decide))) (plain_cons (this _ (Nat.mod_lt _ (by decide))) plain_nil)))

theorem plain_escape (c : Char) : Plain (escapeChar c) := by
  unfold escapeChar
  have le : ∀ a b : Char, a ≤ b ↔ a.toNat ≤ b.toNat := fun a b => Iff.rfl
  have two : ∀ x : Char, 32 ≤ x.toNat ∧ x.toNat ≤ 126 → Plain ['\\', x] := fun x hx =>
    plain_cons (by decide) (plain_cons hx plain_nil)
  split_ifs with h1 h2 h3 h4 h5 h6 h7 h8 h9
  · exact two _ (by decide)
  · exact two _ (by decide)
  · exact two _ (by decide)
  · exact two _ (by decide)
  · exact two _ (by decide)
  · exact two _ (by decide)
  · exact two _ (by decide)
  · have e1 : ' '.toNat = 32 := rfl
    have e2 : '~'.toNat = 126 := rfl
    have := (le _ _).1 h8.1
    have := (le _ _).1 h8.2
    exact plain_cons (by omega) plain_nil
  · exact plain_cons (by decide) (plain_cons (by decide) (plain_hex _))
  · exact plain_append (plain_cons (by decide) (plain_cons (by decide) (plain_hex _)))
      (plain_cons (by decide) (plain_cons (by decide) (plain_hex _)))

theorem plain_string (s : Name) : Plain (dumpString s) := by
  unfold dumpString
  refine plain_append (plain_cons (by decide) ?_) (plain_cons (by decide) plain_nil)
  induction s with
  | nil => exact plain_nil
  | cons c s ih => rw [List.flatMap_cons]; exact plain_append (plain_escape c) ih

theorem plain_int (n : ℤ) : Plain (intRepr n) := by
  unfold intRepr
  split_ifs
  · exact plain_cons (by decide) (plain_digits (toDigits_digits _))
  · exact plain_digits (toDigits_digits _)

theorem plain_float {F : Floats} {r : Name} (h : FloatRepr F r) : Plain r := by
  rcases h with ⟨⟨sign, k, frac, exp, rfl, hs, hf, hx, _⟩, _⟩ | h
  · refine plain_append (plain_append (plain_append ?_ (plain_digits (toDigits_digits _))) ?_) ?_
    · rcases hs with rfl | rfl
      · exact plain_nil
      · exact plain_cons (by decide) plain_nil
    · rcases hf with rfl | ⟨ds, rfl, hd⟩
      · exact plain_nil
      · exact plain_cons (by decide) (plain_digits hd.2)
    · rcases hx with rfl | ⟨e, s, ds, rfl, he, hs, hd⟩
      · exact plain_nil
      · refine plain_append (plain_cons ?_ ?_) (plain_digits hd.2)
        · rcases he with rfl | rfl <;> decide
        · rcases hs with rfl | rfl | rfl
          · exact plain_nil
          · exact plain_cons (by decide) plain_nil
          · exact plain_cons (by decide) plain_nil
  · rcases h with rfl | rfl | rfl <;> (unfold Plain; decide)

mutual
theorem plain_dump (F : Floats) (level : ℕ) : ∀ v : JVal, PyJson F v → Plain (dumpJson level v)
  | .null, _ => by rw [dumpJson]; unfold Plain; decide
  | .bool true, _ => by rw [dumpJson]; unfold Plain; decide
  | .bool false, _ => by rw [dumpJson]; unfold Plain; decide
  | .num n, _ => by rw [dumpJson]; exact plain_int n
  | .float r, h => by
    cases h with
    | float h => rw [dumpJson]; exact plain_float h
  | .str s, _ => by rw [dumpJson]; exact plain_string s
  | .arr [], _ => by rw [dumpJson]; unfold Plain; decide
  | .arr (v :: l), h => by
    cases h with
    | arr h =>
      cases h with
      | cons h1 h2 =>
        rw [dumpJson]
        exact plain_append (plain_append (plain_append (plain_append (plain_cons (by decide) (plain_newline _))
          (plain_dump F (level + 1) v h1)) (plain_elems F (level + 1) l h2)) (plain_newline _))
          (plain_cons (by decide) plain_nil)
  | .obj [], _ => by rw [dumpJson]; unfold Plain; decide
  | .obj ((k, v) :: l), h => by
    cases h with
    | obj hn h =>
      cases h with
      | cons h1 h2 =>
        rw [dumpJson]
        exact plain_append (plain_append (plain_append (plain_append (plain_append
          (plain_cons (by decide) (plain_newline _)) (plain_string k))
          (plain_cons (by decide) (plain_cons (by decide) (plain_dump F (level + 1) v h1))))
          (plain_members F (level + 1) l h2)) (plain_newline _)) (plain_cons (by decide) plain_nil)
theorem plain_elems (F : Floats) (level : ℕ) : ∀ l : List JVal, PyElems F l → Plain (dumpElems level l)
  | [], _ => by rw [dumpElems]; exact plain_nil
  | v :: l, h => by
    cases h with
    | cons h1 h2 =>
      rw [dumpElems]
      exact plain_append (plain_append (plain_cons (by decide) (plain_newline _)) (plain_dump F level v h1))
        (plain_elems F level l h2)
theorem plain_members (F : Floats) (level : ℕ) : ∀ l : List (Name × JVal), PyEntries F l →
    Plain (dumpMembers level l)
  | [], _ => by rw [dumpMembers]; exact plain_nil
  | (k, v) :: l, h => by
    cases h with
    | cons h1 h2 =>
      rw [dumpMembers]
      exact plain_append (plain_append (plain_append (plain_cons (by decide) (plain_newline _)) (plain_string k))
        (plain_cons (by decide) (plain_cons (by decide) (plain_dump F level v h1)))) (plain_members F level l h2)
end

end SegEval
