import Verif.Lemmas.JsonParse
import Verif.Lemmas.Csv

/-!
# Line ends and errors in JSON texts
-/

namespace SegEval

open Spec

/-! ## Universal newlines -/

theorem universal_cons {c : Char} (h : c ≠ '\r') (t : Name) :
    universalNewlines (c :: t) = c :: universalNewlines t := by
  rw [universalNewlines]
  · rw [if_neg h]
  · intro cs e1 _; exact h e1

theorem universal_cr (t : Name) : ∃ t', universalNewlines ('\r' :: t) = '\n' :: universalNewlines t' ∧
    (t' = t ∨ t = '\n' :: t') := by
  cases t with
  | nil => exact ⟨[], rfl, Or.inl rfl⟩
  | cons c t =>
    by_cases h : c = '\n'
    · subst h
      exact ⟨t, by rw [universalNewlines], Or.inr rfl⟩
    · refine ⟨c :: t, ?_, Or.inl rfl⟩
      rw [universalNewlines]
      · rfl
      · intro cs _ e; rw [List.cons.injEq] at e; exact h e.1

theorem universal_nil {t : Name} : universalNewlines t = [] ↔ t = [] := by
  cases t with
  | nil => simp [universalNewlines]
  | cons c t =>
    by_cases h : c = '\r'
    · subst h
      obtain ⟨t', e, _⟩ := universal_cr t
      simp [e]
    · simp [universal_cons h]

theorem universal_inv {w : Name} (hw : ∀ c ∈ w, c ≠ '\n') : ∀ {t s : Name},
    universalNewlines t = w ++ s → ∃ t', t = w ++ t' ∧ universalNewlines t' = s := by
  induction w with
  | nil => intro t s h; exact ⟨t, rfl, h⟩
  | cons c w ih =>
    intro t s h
    cases t with
    | nil => cases h
    | cons x t =>
      by_cases hx : x = '\r'
      · subst hx
        obtain ⟨t', e, _⟩ := universal_cr t
        rw [e, List.cons_append, List.cons.injEq] at h
        exact absurd h.1.symm (hw c (by simp))
      · rw [universal_cons hx, List.cons_append, List.cons.injEq] at h
        obtain ⟨t', rfl, h'⟩ := ih (fun x hx => hw x (by simp [hx])) h.2
        exact ⟨t', by rw [h.1]; rfl, h'⟩

theorem universal_dropWhile {p : Char → Bool} (hp : p '\n' = p '\r') (t : Name) :
    (universalNewlines t).dropWhile p = universalNewlines (t.dropWhile p) := by
  fun_induction universalNewlines t with
  | case1 => rfl
  | case2 cs ih =>
    rw [List.dropWhile_cons, List.dropWhile_cons, List.dropWhile_cons, ← hp]
    split_ifs with h
    · exact ih
    · rw [universalNewlines]
  | case3 c cs hn ih =>
    rw [List.dropWhile_cons, List.dropWhile_cons]
    by_cases hc : c = '\r'
    · subst hc
      rw [if_pos rfl, hp]
      split_ifs with h
      · exact ih
      · rw [universalNewlines]
        · rfl
        · intro cs' _ e; exact hn cs' rfl e
    · rw [if_neg hc]
      split_ifs with h
      · exact ih
      · rw [universal_cons hc]

theorem universal_takeWhile {p : Char → Bool} (hp : p '\n' = false) (hp' : p '\r' = false) (t : Name) :
    (universalNewlines t).takeWhile p = t.takeWhile p := by
  fun_induction universalNewlines t with
  | case1 => rfl
  | case2 cs ih => simp [hp, hp']
  | case3 c cs hn ih =>
    by_cases hc : c = '\r'
    · subst hc
      simp [hp, hp']
    · rw [if_neg hc, List.takeWhile_cons, List.takeWhile_cons, ih]

theorem skipSpace_universal (t : Name) : skipSpace (universalNewlines t) = universalNewlines (skipSpace t) :=
  universal_dropWhile (by decide) t

/-- The head, if it is not a line end. -/
theorem universal_head {c : Char} (hn : c ≠ '\n') (hr : c ≠ '\r') {t r : Name} :
    universalNewlines t = c :: r ↔ ∃ r', t = c :: r' ∧ r = universalNewlines r' := by
  constructor
  · intro h
    obtain ⟨t', e, h'⟩ := universal_inv (w := [c]) (by simpa using hn) (t := t) (s := r) h
    exact ⟨t', e, h'.symm⟩
  · rintro ⟨r', rfl, rfl⟩
    exact universal_cons hr r'

/-! ## Strings -/

theorem hex_not_line {c : Char} {d : ℕ} (h : HexDigit c d) : c ≠ '\n' ∧ c ≠ '\r' := by
  have := hexVal_iff.2 h
  constructor <;> (rintro rfl; revert this; simp [show hexVal '\n' = none by decide, show hexVal '\r' = none by decide])

theorem hex4_not_line {w : Name} {n : ℕ} (h : Hex4 w n) : ∀ c ∈ w, c ≠ '\n' ∧ c ≠ '\r' := by
  obtain ⟨a, b, c, d, x, y, z, u, rfl, hx, hy, hz, hu, _⟩ := h
  intro e he
  simp only [List.mem_cons, List.not_mem_nil, or_false] at he
  rcases he with rfl | rfl | rfl | rfl
  · exact hex_not_line hx
  · exact hex_not_line hy
  · exact hex_not_line hz
  · exact hex_not_line hu

theorem units_not_line {b : Name} {us : List ℕ} (h : UnitsOf b us) : ∀ c ∈ b, c ≠ '\n' ∧ c ≠ '\r' := by
  induction h with
  | nil => simp
  | plain h1 h2 h3 _ ih =>
    intro x hx
    rcases List.mem_cons.1 hx with rfl | hx
    · constructor <;> (rintro rfl; exact absurd h1 (by decide))
    · exact ih x hx
  | @escape e c t us he _ ih =>
    intro x hx
    simp only [List.mem_cons] at hx
    rcases hx with rfl | rfl | hx
    · decide
    · constructor <;> (rintro rfl; revert he; simp [escapes])
    · exact ih x hx
  | code hw _ ih =>
    intro x hx
    simp only [List.cons_append, List.mem_cons, List.mem_append] at hx
    rcases hx with rfl | rfl | hx | hx
    · decide
    · decide
    · exact hex4_not_line hw x hx
    · exact ih x hx

theorem scanUnits_universal (t : Name) :
    scanUnits (universalNewlines t) = (scanUnits t).map (fun p => (p.1, universalNewlines p.2)) := by
  cases h : scanUnits t with
  | some p =>
    obtain ⟨us, r⟩ := p
    obtain ⟨b, rfl, hb⟩ := scanUnits_sound t h
    rw [universal_append (fun c hc => (units_not_line hb c hc).2), universal_cons (by decide),
      scanUnits_complete hb]
    rfl
  | none =>
    cases h' : scanUnits (universalNewlines t) with
    | none => rfl
    | some p =>
      obtain ⟨us, r⟩ := p
      obtain ⟨b, e, hb⟩ := scanUnits_sound _ h'
      obtain ⟨t', rfl, e'⟩ := universal_inv (fun c hc => (units_not_line hb c hc).1) e
      obtain ⟨t'', rfl, _⟩ := (universal_head (by decide) (by decide)).1 e'
      rw [scanUnits_complete hb] at h
      cases h

variable {α : Type} [DecidableEq α] {J : List ℕ → Option (List α)} {B : Name → List α → Prop}

omit [DecidableEq α] in
theorem scanString_universal (t : Name) : scanString J (universalNewlines t) =
    match scanString J t with
    | .error e => .error e
    | .ok (s, r) => .ok (s, universalNewlines r) := by
  unfold scanString
  rw [scanUnits_universal]
  cases scanUnits t with
  | none => rfl
  | some p =>
    obtain ⟨us, r⟩ := p
    simp only [Option.map_some]
    cases J us <;> rfl

/-! ## Numbers and words -/

theorem scanInt_universal (t : Name) :
    scanInt (universalNewlines t) = (scanInt t).map (fun p => (p.1, universalNewlines p.2)) := by
  cases t with
  | nil => rfl
  | cons c t =>
    by_cases h : c = '\r'
    · subst h
      obtain ⟨t', e, _⟩ := universal_cr t
      rw [e]
      rfl
    · rw [universal_cons h]
      unfold scanInt
      simp only
      split_ifs with h1 h2
      · rfl
      · rw [universal_takeWhile (by decide) (by decide), universal_dropWhile (by decide)]
        rfl
      · rfl

theorem scanFrac_universal (t : Name) :
    scanFrac (universalNewlines t) = ((scanFrac t).1, universalNewlines (scanFrac t).2) := by
  by_cases h : ∃ r, t = '.' :: r
  · obtain ⟨r, rfl⟩ := h
    rw [universal_cons (by decide)]
    unfold scanFrac
    simp only [universal_takeWhile (p := Char.isDigit) (by decide) (by decide),
      universal_dropWhile (p := Char.isDigit) (by decide)]
    split_ifs with h0
    · rw [universal_cons (by decide)]
    · rfl
  · push Not at h
    rw [scanFrac_nil h, scanFrac_nil]
    intro r e
    obtain ⟨r', e', _⟩ := (universal_head (by decide) (by decide)).1 e
    exact h r' e'

theorem scanSign_universal (t : Name) :
    scanSign (universalNewlines t) = ((scanSign t).1, universalNewlines (scanSign t).2) := by
  by_cases h : ∃ r, t = '+' :: r
  · obtain ⟨r, rfl⟩ := h
    rw [universal_cons (by decide)]
    rfl
  by_cases h' : ∃ r, t = '-' :: r
  · obtain ⟨r, rfl⟩ := h'
    rw [universal_cons (by decide)]
    rfl
  push Not at h h'
  have other : ∀ s : Name, (∀ r, s ≠ '+' :: r) → (∀ r, s ≠ '-' :: r) → scanSign s = ([], s) := by
    intro s h1 h2
    unfold scanSign
    split
    · rename_i r; exact absurd rfl (h1 r)
    · rename_i r; exact absurd rfl (h2 r)
    · rfl
  rw [other t h h', other]
  · intro r e
    obtain ⟨r', e', _⟩ := (universal_head (by decide) (by decide)).1 e
    exact h r' e'
  · intro r e
    obtain ⟨r', e', _⟩ := (universal_head (by decide) (by decide)).1 e
    exact h' r' e'

theorem scanExp_universal (t : Name) :
    scanExp (universalNewlines t) = ((scanExp t).1, universalNewlines (scanExp t).2) := by
  cases t with
  | nil => rfl
  | cons c t =>
    by_cases h : c = '\r'
    · subst h
      have e2 : scanExp ('\r' :: t) = ([], '\r' :: t) := scanExp_nil (by
        intro c r' e
        rw [List.cons.injEq] at e
        rw [← e.1]; decide)
      obtain ⟨t', e, _⟩ := universal_cr t
      rw [e2]
      simp only
      rw [e]
      exact scanExp_nil (by
        intro c r' e
        rw [List.cons.injEq] at e
        rw [← e.1]; decide)
    · rw [universal_cons h]
      unfold scanExp
      simp only [scanSign_universal, universal_takeWhile (p := Char.isDigit) (by decide) (by decide),
        universal_dropWhile (p := Char.isDigit) (by decide)]
      split_ifs with h0
      · rfl
      · rw [universal_cons h]

omit [DecidableEq α] in
theorem scanUnsigned_universal (F : Floats) (sign t : Name) : scanUnsigned (α := α) F sign (universalNewlines t) =
    (scanUnsigned (α := α) F sign t).map (fun p => (p.1, universalNewlines p.2)) := by
  unfold scanUnsigned
  rw [scanInt_universal]
  cases scanInt t with
  | none => rfl
  | some p =>
    obtain ⟨w, r⟩ := p
    simp only [Option.map_some, scanFrac_universal, scanExp_universal]
    split_ifs <;> rfl

omit [DecidableEq α] in
theorem scanNumber_universal (F : Floats) (t : Name) : scanNumber (α := α) F (universalNewlines t) =
    (scanNumber (α := α) F t).map (fun p => (p.1, universalNewlines p.2)) := by
  by_cases h : ∃ r, t = '-' :: r
  · obtain ⟨r, rfl⟩ := h
    rw [universal_cons (by decide)]
    exact scanUnsigned_universal F _ r
  · push Not at h
    rw [scanNumber_plus h, scanNumber_plus, scanUnsigned_universal]
    intro r e
    obtain ⟨r', e', _⟩ := (universal_head (by decide) (by decide)).1 e
    exact h r' e'

theorem isPrefixOf_universal {w : Name} (hn : ∀ c ∈ w, c ≠ '\n' ∧ c ≠ '\r') (t : Name) :
    w.isPrefixOf (universalNewlines t) = w.isPrefixOf t := by
  rw [Bool.eq_iff_iff, List.isPrefixOf_iff_prefix, List.isPrefixOf_iff_prefix]
  constructor
  · rintro ⟨s, e⟩
    obtain ⟨t', rfl, _⟩ := universal_inv (fun c hc => (hn c hc).1) e.symm
    exact ⟨t', rfl⟩
  · rintro ⟨s, rfl⟩
    exact ⟨_, (universal_append (fun c hc => (hn c hc).2) s).symm⟩

omit [DecidableEq α] in
theorem scanWord_universal (t : Name) : scanWord (α := α) (universalNewlines t) =
    (scanWord (α := α) t).map (fun p => (p.1, universalNewlines p.2)) := by
  unfold scanWord
  have hw : ∀ w ∈ jsonWords (α := α), ∀ c ∈ w.1, c ≠ '\n' ∧ c ≠ '\r' := by
    intro w hm
    simp only [jsonWords, List.mem_cons, List.not_mem_nil, or_false] at hm
    rcases hm with rfl | rfl | rfl | rfl | rfl | rfl <;> simp only <;> decide
  generalize jsonWords (α := α) = ws at hw
  induction ws with
  | nil => rfl
  | cons w ws ih =>
    have h1 := hw w (by simp)
    rw [List.findSome?_cons, List.findSome?_cons, isPrefixOf_universal h1]
    by_cases hp : w.1.isPrefixOf t = true
    · rw [if_pos hp, if_pos hp]
      rw [List.isPrefixOf_iff_prefix] at hp
      obtain ⟨s, rfl⟩ := hp
      simp only [Option.map_some]
      rw [universal_append (fun c hc => (h1 c hc).2), List.drop_left, List.drop_left]
    · rw [if_neg hp, if_neg hp]
      exact ih (fun w hm => hw w (by simp [hm]))

/-! ## Values -/

/-- The same result, with the rest of the text as universal newlines make it. -/
def linesOf {β : Type _} (x : Py (β × Name)) : Py (β × Name) :=
  match x with
  | .error e => .error e
  | .ok (v, r) => .ok (v, universalNewlines r)

omit [DecidableEq α] in
theorem parseAtom_universal (F : Floats) (t : Name) :
    parseAtom (α := α) F (universalNewlines t) = linesOf (parseAtom (α := α) F t) := by
  unfold parseAtom
  rw [scanWord_universal, scanNumber_universal]
  cases scanWord (α := α) t with
  | some p => rfl
  | none => cases scanNumber (α := α) F t <;> rfl

theorem arr_some {F : Floats} {n : ℕ} {r : Name} (h : ∀ r1, skipSpace r ≠ ']' :: r1) :
    parseValue J F (n + 1) ('[' :: r) =
      match parseElems J F n (skipSpace r) with
      | .error e => .error e
      | .ok (l, r2) => .ok (.arr l, r2) := by
  rw [parseValue_arr]
  split
  · rename_i heq; exact absurd heq (h _)
  · rfl

theorem obj_some {F : Floats} {n : ℕ} {r : Name} (h : ∀ r1, skipSpace r ≠ '}' :: r1) :
    parseValue J F (n + 1) ('{' :: r) =
      match parseMembers J F n (skipSpace r) with
      | .error e => .error e
      | .ok (l, r2) => .ok (.obj (dictUpdate [] l), r2) := by
  rw [parseValue_obj]
  split
  · rename_i heq; exact absurd heq (h _)
  · rfl

/-- After an element or entry: `close` ends the list, a comma continues it. -/
def parseRest {β : Type _} (close : Char) (x : β) (next : Name → Py (List β × Name)) (r : Name) :
    Py (List β × Name) :=
  match r with
  | [] => .error .dataIOError
  | c :: r1 =>
    if c = close then .ok ([x], r1)
    else if c = ',' then
      match next (skipSpace r1) with
      | .error e => .error e
      | .ok (l, r2) => .ok (x :: l, r2)
    else .error .dataIOError

theorem parseElems_rest (F : Floats) (n : ℕ) (t : Name) : parseElems J F (n + 1) t =
    match parseValue J F n t with
    | .error e => .error e
    | .ok (v, r) => parseRest ']' v (parseElems J F n) (skipSpace r) := by
  rw [parseElems.eq_def]
  simp only
  cases parseValue J F n t with
  | error e => rfl
  | ok p =>
    obtain ⟨v, r⟩ := p
    simp only
    unfold parseRest
    cases skipSpace r with
    | nil => rfl
    | cons c r1 =>
      simp only
      by_cases h1 : c = ']'
      · subst h1; rfl
      by_cases h2 : c = ','
      · subst h2
        rw [if_neg h1, if_pos rfl]
        simp only
        cases parseElems J F n (skipSpace r1) <;> rfl
      rw [if_neg h1, if_neg h2]
      split
      · rename_i heq; rw [List.cons.injEq] at heq; exact absurd heq.1 h1
      · rename_i heq; rw [List.cons.injEq] at heq; exact absurd heq.1 h2
      · rfl

/-- After a key: a colon and the value. -/
def parseColon (J : List ℕ → Option (List α)) (F : Floats) (n : ℕ) (k : List α) (r : Name) : Py (List (List α × JV α) × Name) :=
  match r with
  | [] => .error .dataIOError
  | c :: r2 =>
    if c = ':' then
      match parseValue J F n (skipSpace r2) with
      | .error e => .error e
      | .ok (v, r3) => parseRest '}' (k, v) (parseMembers J F n) (skipSpace r3)
    else .error .dataIOError

theorem parseMembers_quote (F : Floats) (n : ℕ) (t : Name) : parseMembers J F (n + 1) ('"' :: t) =
    match scanString J t with
    | .error e => .error e
    | .ok (k, r) => parseColon J F n k (skipSpace r) := by
  rw [parseMembers.eq_def]
  simp only
  cases scanString J t with
  | error e => rfl
  | ok p =>
    obtain ⟨k, r⟩ := p
    simp only
    unfold parseColon
    cases skipSpace r with
    | nil => rfl
    | cons c r2 =>
      simp only
      by_cases h : c = ':'
      · subst h
        simp only [if_true]
        cases parseValue J F n (skipSpace r2) with
        | error e => rfl
        | ok p =>
          obtain ⟨v, r3⟩ := p
          simp only
          unfold parseRest
          cases skipSpace r3 with
          | nil => rfl
          | cons c r4 =>
            simp only
            by_cases h1 : c = '}'
            · subst h1; rfl
            by_cases h2 : c = ','
            · subst h2
              rw [if_neg h1, if_pos rfl]
              simp only
              cases parseMembers J F n (skipSpace r4) <;> rfl
            rw [if_neg h1, if_neg h2]
            split
            · rename_i heq; rw [List.cons.injEq] at heq; exact absurd heq.1 h1
            · rename_i heq; rw [List.cons.injEq] at heq; exact absurd heq.1 h2
            · rfl
      · rw [if_neg h]
        split
        · rename_i heq; rw [List.cons.injEq] at heq; exact absurd heq.1 h
        · rfl

theorem parseMembers_other {F : Floats} {n : ℕ} {t : Name} (h : ∀ r, t ≠ '"' :: r) :
    parseMembers J F (n + 1) t = .error .dataIOError := by
  rw [parseMembers.eq_def]
  split
  · cases ‹_ + 1 = 0›
  split
  · rename_i r; exact absurd rfl (h r)
  · rfl

theorem parseRest_universal {β : Type _} {close : Char} (hn : close ≠ '\n') (hr : close ≠ '\r') (x : β)
    {next : Name → Py (List β × Name)} (h : ∀ t, next (universalNewlines t) = linesOf (next t)) (r : Name) :
    parseRest close x next (universalNewlines r) = linesOf (parseRest close x next r) := by
  cases r with
  | nil => rfl
  | cons c r =>
    by_cases hc : c = '\r'
    · subst hc
      obtain ⟨t', e, _⟩ := universal_cr r
      rw [e]
      unfold parseRest
      simp only
      rw [if_neg (fun h => hn h.symm), if_neg (show ('\n' : Char) ≠ ',' by decide),
        if_neg (fun h => hr h.symm), if_neg (show ('\r' : Char) ≠ ',' by decide)]
      rfl
    · rw [universal_cons hc]
      unfold parseRest
      simp only
      split_ifs
      · rfl
      · rw [skipSpace_universal, h]
        cases next (skipSpace r) <;> rfl
      · rfl

theorem parseColon_universal {F : Floats} {n : ℕ}
    (hv : ∀ t, parseValue J F n (universalNewlines t) = linesOf (parseValue J F n t))
    (hm : ∀ t, parseMembers J F n (universalNewlines t) = linesOf (parseMembers J F n t)) (k : List α) (r : Name) :
    parseColon J F n k (universalNewlines r) = linesOf (parseColon J F n k r) := by
  cases r with
  | nil => rfl
  | cons c r =>
    by_cases hc : c = '\r'
    · subst hc
      obtain ⟨t', e, _⟩ := universal_cr r
      rw [e]
      rfl
    · rw [universal_cons hc]
      unfold parseColon
      simp only
      split_ifs
      · rw [skipSpace_universal, hv]
        cases parseValue J F n (skipSpace r) with
        | error e => rfl
        | ok p =>
          obtain ⟨v, r3⟩ := p
          simp only [linesOf]
          rw [skipSpace_universal, parseRest_universal (by decide) (by decide) (k, v) hm]
          rfl
      · rfl

theorem universal_head_ne {c : Char} (hn : c ≠ '\n') (hr : c ≠ '\r') {t : Name} (h : ∀ r, t ≠ c :: r) :
    ∀ r, universalNewlines t ≠ c :: r := by
  intro r e
  obtain ⟨r', e', _⟩ := (universal_head hn hr).1 e
  exact h r' e'

theorem parse_universal (F : Floats) (n : ℕ) :
    (∀ t, parseValue J F n (universalNewlines t) = linesOf (parseValue J F n t)) ∧
    (∀ t, parseElems J F n (universalNewlines t) = linesOf (parseElems J F n t)) ∧
    (∀ t, parseMembers J F n (universalNewlines t) = linesOf (parseMembers J F n t)) := by
  induction n with
  | zero => exact ⟨fun t => rfl, fun t => rfl, fun t => rfl⟩
  | succ n ih =>
    obtain ⟨ihv, ihe, ihm⟩ := ih
    refine ⟨?_, ?_, ?_⟩
    · intro t
      rcases head_cases t with ⟨t', rfl⟩ | ⟨t', rfl⟩ | ⟨t', rfl⟩ | ho
      · rw [universal_cons (by decide), parseValue_str, parseValue_str, scanString_universal]
        cases scanString J t' <;> rfl
      · rw [universal_cons (by decide)]
        by_cases h : ∃ r1, skipSpace t' = ']' :: r1
        · obtain ⟨r1, h⟩ := h
          rw [parseValue_arr, parseValue_arr, skipSpace_universal, h, universal_cons (by decide)]
          rfl
        · push Not at h
          rw [arr_some h, arr_some (by rw [skipSpace_universal]; exact universal_head_ne (by decide) (by decide) h),
            skipSpace_universal, ihe]
          cases parseElems J F n (skipSpace t') <;> rfl
      · rw [universal_cons (by decide)]
        by_cases h : ∃ r1, skipSpace t' = '}' :: r1
        · obtain ⟨r1, h⟩ := h
          rw [parseValue_obj, parseValue_obj, skipSpace_universal, h, universal_cons (by decide)]
          rfl
        · push Not at h
          rw [obj_some h, obj_some (by rw [skipSpace_universal]; exact universal_head_ne (by decide) (by decide) h),
            skipSpace_universal, ihm]
          cases parseMembers J F n (skipSpace t') <;> rfl
      · rw [parseValue_other F n ho, parseValue_other, parseAtom_universal]
        intro c r e
        refine ⟨?_, ?_, ?_⟩
        · rintro rfl
          obtain ⟨r', e', _⟩ := (universal_head (by decide) (by decide)).1 e
          exact (ho _ _ e').1 rfl
        · rintro rfl
          obtain ⟨r', e', _⟩ := (universal_head (by decide) (by decide)).1 e
          exact (ho _ _ e').2.1 rfl
        · rintro rfl
          obtain ⟨r', e', _⟩ := (universal_head (by decide) (by decide)).1 e
          exact (ho _ _ e').2.2 rfl
    · intro t
      rw [parseElems_rest, parseElems_rest, ihv]
      cases parseValue J F n t with
      | error e => rfl
      | ok p =>
        obtain ⟨v, r⟩ := p
        simp only [linesOf]
        rw [skipSpace_universal, parseRest_universal (by decide) (by decide) v ihe]
        rfl
    · intro t
      by_cases h : ∃ r, t = '"' :: r
      · obtain ⟨r, rfl⟩ := h
        rw [universal_cons (by decide), parseMembers_quote, parseMembers_quote, scanString_universal]
        cases scanString J r with
        | error e => rfl
        | ok p =>
          obtain ⟨k, r1⟩ := p
          simp only
          rw [skipSpace_universal, parseColon_universal ihv ihm]
      · push Not at h
        rw [parseMembers_other h, parseMembers_other (universal_head_ne (by decide) (by decide) h)]
        rfl

theorem universal_length (t : Name) : (universalNewlines t).length ≤ t.length := by
  fun_induction universalNewlines t with
  | case1 => simp
  | case2 cs ih => simp only [List.length_cons]; omega
  | case3 c cs hn ih => simp only [List.length_cons]; omega

theorem docOf_universal (hR : ReadsAs J B) (F : Floats) (text : Name) (v : JV α) :
    JDocOf B F (universalNewlines text) v ↔ JDocOf B F text v := by
  have hl := universal_length text
  rw [← parse_doc hR F (n := 2 * text.length) (by omega), ← parse_doc hR F (n := 2 * text.length) le_rfl,
    skipSpace_universal, (parse_universal F _).1]
  cases parseValue J F (2 * text.length) (skipSpace text) with
  | error e => simp [linesOf]
  | ok p =>
    obtain ⟨v', r⟩ := p
    simp only [linesOf, Except.ok.injEq, Prod.mk.injEq]
    constructor
    · rintro ⟨r', ⟨rfl, rfl⟩, h⟩
      rw [skipSpace_universal, universal_nil] at h
      exact ⟨r, ⟨rfl, rfl⟩, h⟩
    · rintro ⟨r', ⟨rfl, rfl⟩, h⟩
      exact ⟨_, ⟨rfl, rfl⟩, by rw [skipSpace_universal, h]; rfl⟩

theorem doc_universal (F : Floats) (text : Name) (v : JVal) :
    JDoc F (universalNewlines text) v ↔ JDoc F text v :=
  docOf_universal reads_units F text v

/-! ## Errors -/

theorem joinUnits_none : ∀ (n : ℕ) {us : List ℕ}, us.length ≤ n → joinUnits us = none →
    ∃ u ∈ us, isHigh u = true ∨ isLow u = true := by
  intro n
  induction n with
  | zero =>
    intro us hn h
    have : us = [] := List.length_eq_zero_iff.1 (by omega)
    subst this
    cases h
  | succ n ih =>
    intro us hn h
    cases us with
    | nil => cases h
    | cons u us =>
      by_cases hs : isHigh u = true ∨ isLow u = true
      · exact ⟨u, by simp, hs⟩
      · push Not at hs
        rw [List.length_cons] at hn
        have : joinUnits us = none := by
          cases us with
          | nil => simp [joinUnits, hs.1, hs.2] at h
          | cons v r =>
            rw [joinUnits, if_neg hs.1, if_neg hs.2, Option.map_eq_none_iff] at h
            exact h
        obtain ⟨x, hx, hh⟩ := ih (by omega) this
        exact ⟨x, by simp [hx], hh⟩

theorem surrogate_append {t : Name} (a b : Name) (h : SurrogateEscape t) : SurrogateEscape (a ++ t ++ b) := by
  obtain ⟨before, w, after, n, rfl, hw⟩ := h
  exact ⟨a ++ before, w, after ++ b, n, by simp, hw⟩

theorem units_escape {b : Name} {us : List ℕ} (h : UnitsOf b us) {u : ℕ} (hu : u ∈ us)
    (hs : isHigh u = true ∨ isLow u = true) : SurrogateEscape b := by
  induction h with
  | nil => cases hu
  | @plain c t us _ _ _ _ ih =>
    rcases List.mem_cons.1 hu with rfl | hu
    · have := char_not_surrogate c
      rw [this.1, this.2] at hs
      simp at hs
    · have := surrogate_append [c] [] (ih hu)
      simpa using this
  | @escape e c t us _ _ ih =>
    rcases List.mem_cons.1 hu with rfl | hu
    · have := char_not_surrogate c
      rw [this.1, this.2] at hs
      simp at hs
    · have := surrogate_append ['\\', e] [] (ih hu)
      simpa using this
  | @code w n t us hw _ ih =>
    rcases List.mem_cons.1 hu with rfl | hu
    · refine ⟨[], w, t, u, rfl, hw, ?_⟩
      unfold isHigh isLow at hs
      simp only [Bool.and_eq_true, decide_eq_true_eq] at hs
      omega
    · have := surrogate_append ('\\' :: 'u' :: w) [] (ih hu)
      simpa using this

theorem scanString_unmodelled {t : Name} (h : scanString joinUnits t = .error .unmodelled) : SurrogateEscape t := by
  unfold scanString at h
  split at h
  · cases h
  · rename_i us r hs
    split at h
    · rename_i hj
      obtain ⟨u, hu, hh⟩ := joinUnits_none _ le_rfl hj
      obtain ⟨b, rfl, hb⟩ := scanUnits_sound t hs
      have := surrogate_append [] ('"' :: r) (units_escape hb hu hh)
      simpa using this
    · cases h

/-- An error that `json.load` may raise. -/
def JsonError {α : Type} (J : List ℕ → Option (List α)) (t : Name) (e : PyErr) : Prop :=
  e = .dataIOError ∨ (e = .unmodelled ∧ SurrogateEscape t ∧ ∃ us, J us = none)

theorem scanString_errors {t : Name} {e : PyErr} (h : scanString joinUnits t = .error e) :
    JsonError joinUnits t e := by
  rcases scanString_error h with rfl | rfl
  · exact Or.inl rfl
  · exact Or.inr ⟨rfl, scanString_unmodelled h, [0xd800], rfl⟩

omit [DecidableEq α] in
theorem jsonError_suffix {t : Name} {e : PyErr} (a : Name) (h : JsonError J t e) : JsonError J (a ++ t) e := by
  rcases h with rfl | ⟨rfl, h, hn⟩
  · exact Or.inl rfl
  · have := surrogate_append a [] h
    rw [List.append_nil] at this
    exact Or.inr ⟨rfl, this, hn⟩

omit [DecidableEq α] in
theorem jsonError_skip {t : Name} {e : PyErr} (h : JsonError J (skipSpace t) e) : JsonError J t e := by
  obtain ⟨g, e', _⟩ := skipSpace_split t
  rw [e']
  exact jsonError_suffix g h

omit [DecidableEq α] in
theorem jsonError_cons {t : Name} {e : PyErr} (c : Char) (h : JsonError J t e) : JsonError J (c :: t) e :=
  jsonError_suffix [c] h

omit [DecidableEq α] in
theorem parseRest_error {β : Type _} {close : Char} {x : β} {next : Name → Py (List β × Name)} {r : Name}
    {e : PyErr} (hn : ∀ t, next t = .error e → JsonError J t e) (h : parseRest close x next r = .error e) :
    JsonError J r e := by
  cases r with
  | nil => cases h; exact Or.inl rfl
  | cons c r =>
    unfold parseRest at h
    simp only at h
    split_ifs at h
    · split at h
      · rename_i e' he
        cases h
        exact jsonError_cons c (jsonError_skip (hn _ he))
      · cases h
    · cases h
      exact Or.inl rfl

theorem parse_error (hR : ReadsAs J B) (F : Floats) (n : ℕ) (e : PyErr)
    (hJ : ∀ t, scanString J t = .error e → JsonError J t e) :
    (∀ t, parseValue J F n t = .error e → JsonError J t e) ∧
    (∀ t, parseElems J F n t = .error e → JsonError J t e) ∧
    (∀ t, parseMembers J F n t = .error e → JsonError J t e) := by
  induction n with
  | zero => exact ⟨fun t h => by cases h; exact Or.inl rfl, fun t h => by cases h; exact Or.inl rfl,
      fun t h => by cases h; exact Or.inl rfl⟩
  | succ n ih =>
    obtain ⟨ihv, ihe, ihm⟩ := ih
    refine ⟨?_, ?_, ?_⟩
    · intro t h
      rcases head_cases t with ⟨t', rfl⟩ | ⟨t', rfl⟩ | ⟨t', rfl⟩ | ho
      · rw [parseValue_str] at h
        split at h
        · rename_i e' he
          cases h
          exact jsonError_cons _ (hJ _ he)
        · cases h
      · by_cases hc : ∃ r1, skipSpace t' = ']' :: r1
        · obtain ⟨r1, hc⟩ := hc
          rw [parseValue_arr, hc] at h
          cases h
        · push Not at hc
          rw [arr_some hc] at h
          split at h
          · rename_i e' he
            cases h
            exact jsonError_cons _ (jsonError_skip (ihe _ he))
          · cases h
      · by_cases hc : ∃ r1, skipSpace t' = '}' :: r1
        · obtain ⟨r1, hc⟩ := hc
          rw [parseValue_obj, hc] at h
          cases h
        · push Not at hc
          rw [obj_some hc] at h
          split at h
          · rename_i e' he
            cases h
            exact jsonError_cons _ (jsonError_skip (ihm _ he))
          · cases h
      · rw [parseValue_other F n ho] at h
        unfold parseAtom at h
        split at h
        · cases h
        · split at h
          · cases h
          · cases h; exact Or.inl rfl
    · intro t h
      rw [parseElems_rest] at h
      split at h
      · rename_i e' he
        cases h
        exact ihv t he
      · rename_i v r hv
        obtain ⟨w, rfl, _⟩ := (parse_sound hR F n).1 _ _ _ hv
        exact jsonError_suffix w (jsonError_skip (parseRest_error ihe h))
    · intro t h
      by_cases hq : ∃ r, t = '"' :: r
      · obtain ⟨r, rfl⟩ := hq
        rw [parseMembers_quote] at h
        split at h
        · rename_i e' he
          cases h
          exact jsonError_cons _ (hJ _ he)
        · rename_i k r1 hk
          obtain ⟨b, rfl, _⟩ := scanString_sound hR hk
          apply jsonError_cons
          apply jsonError_suffix b
          apply jsonError_cons
          apply jsonError_skip
          cases hr : skipSpace r1 with
          | nil => rw [hr] at h; cases h; exact Or.inl rfl
          | cons c r2 =>
            rw [hr] at h
            unfold parseColon at h
            simp only at h
            split_ifs at h
            · split at h
              · rename_i e' he
                cases h
                exact jsonError_cons c (jsonError_skip (ihv _ he))
              · rename_i v r3 hv
                apply jsonError_cons c
                apply jsonError_skip
                obtain ⟨w, ew, _⟩ := (parse_sound hR F n).1 _ _ _ hv
                rw [ew]
                exact jsonError_suffix w (jsonError_skip (parseRest_error ihm h))
            · cases h; exact Or.inl rfl
      · push Not at hq
        rw [parseMembers_other hq] at h
        cases h
        exact Or.inl rfl

theorem parseJsonOf_error (hR : ReadsAs J B) {F : Floats} {text : Name} {e : PyErr}
    (hJ : ∀ t, scanString J t = .error e → JsonError J t e) (h : parseJsonOf J F text = .error e) :
    JsonError J text e := by
  unfold parseJsonOf at h
  split at h
  · rename_i e' he
    cases h
    exact jsonError_skip ((parse_error hR F _ e hJ).1 _ he)
  · split_ifs at h
    cases h
    exact Or.inl rfl

theorem parseJson_error {F : Floats} {text : Name} {e : PyErr} (h : parseJson F text = .error e) :
    e = .dataIOError ∨ (e = .unmodelled ∧ SurrogateEscape text) := by
  rcases parseJsonOf_error reads_units (fun t => scanString_errors) h with h | ⟨h1, h2, _⟩
  · exact Or.inl h
  · exact Or.inr ⟨h1, h2⟩

theorem surrogate_universal {text : Name} (h : SurrogateEscape (universalNewlines text)) :
    SurrogateEscape text := by
  obtain ⟨before, w, after, n, e, hw⟩ := h
  have split : ∀ {t a s : Name}, universalNewlines t = a ++ s → ∃ a' t', t = a' ++ t' ∧ universalNewlines t' = s := by
    intro t a
    induction a generalizing t with
    | nil => intro s e; exact ⟨[], t, rfl, e⟩
    | cons c a ih =>
      intro s e
      cases t with
      | nil => cases e
      | cons x t =>
        by_cases hx : x = '\r'
        · subst hx
          obtain ⟨t', e', ht⟩ := universal_cr t
          rw [e', List.cons_append, List.cons.injEq] at e
          obtain ⟨a', t2, rfl, h2⟩ := ih e.2
          rcases ht with rfl | rfl
          · exact ⟨'\r' :: a', t2, rfl, h2⟩
          · exact ⟨'\r' :: '\n' :: a', t2, rfl, h2⟩
        · rw [universal_cons hx, List.cons_append, List.cons.injEq] at e
          obtain ⟨a', t2, rfl, h2⟩ := ih e.2
          exact ⟨x :: a', t2, rfl, h2⟩
  rw [List.append_assoc] at e
  obtain ⟨a', t', rfl, e'⟩ := split e
  have hn : ∀ c ∈ '\\' :: 'u' :: w, c ≠ '\n' := by
    intro c hc
    simp only [List.mem_cons] at hc
    rcases hc with rfl | rfl | hc
    · decide
    · decide
    · exact (hex4_not_line hw.1 c hc).1
  obtain ⟨t2, rfl, _⟩ := universal_inv hn e'
  exact ⟨a', w, t2, n, by simp, hw⟩

end SegEval
