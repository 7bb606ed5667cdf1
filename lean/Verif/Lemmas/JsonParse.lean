import Verif.Lemmas.JsonNumber

/-!
# Reading JSON texts
-/

namespace SegEval

open Spec

variable {α : Type} [DecidableEq α] {J : List ℕ → Option (List α)} {B : Name → List α → Prop}

/-! ## White space -/

theorem jsonSpace_iff {c : Char} : jsonSpace c = true ↔ c ∈ [' ', '\t', '\n', '\r'] := by
  unfold jsonSpace
  simp [or_assoc]

theorem skipSpace_split (t : Name) : ∃ g, t = g ++ skipSpace t ∧ Gap g := by
  unfold skipSpace
  induction t with
  | nil => exact ⟨[], rfl, by intro c hc; cases hc⟩
  | cons c t ih =>
    rw [List.dropWhile_cons]
    split_ifs with h
    · obtain ⟨g, e, hg⟩ := ih
      refine ⟨c :: g, by rw [List.cons_append, ← e], ?_⟩
      intro x hx
      rcases List.mem_cons.1 hx with rfl | hx
      · exact jsonSpace_iff.1 h
      · exact hg x hx
    · exact ⟨[], rfl, by intro c hc; cases hc⟩

theorem skipSpace_gap {g : Name} (h : Gap g) (t : Name) : skipSpace (g ++ t) = skipSpace t := by
  induction g with
  | nil => rfl
  | cons c g ih =>
    unfold skipSpace at ih ⊢
    rw [List.cons_append, List.dropWhile_cons, if_pos (jsonSpace_iff.2 (h c (by simp)))]
    exact ih (fun x hx => h x (by simp [hx]))

theorem skipSpace_cons {c : Char} (h : c ∉ [' ', '\t', '\n', '\r']) (t : Name) :
    skipSpace (c :: t) = c :: t := by
  unfold skipSpace
  rw [List.dropWhile_cons, if_neg (fun h' => h (jsonSpace_iff.1 h'))]

theorem skipSpace_all {g : Name} (h : Gap g) : skipSpace g = [] := by
  have := skipSpace_gap h []
  rwa [List.append_nil] at this

theorem gap_append {g g' : Name} (h : Gap g) (h' : Gap g') : Gap (g ++ g') := by
  intro c hc
  rcases List.mem_append.1 hc with hc | hc
  · exact h c hc
  · exact h' c hc

theorem gap_nil : Gap [] := by intro c hc; cases hc

theorem gap_stops {g r : Name} (h : Gap g) (hr : Stops r) : Stops (g ++ r) := by
  cases g with
  | nil => exact hr
  | cons c g =>
    intro x r' e
    rw [List.cons_append, List.cons.injEq] at e
    have := h c (by simp)
    rw [← e.1]
    simp only [List.mem_cons, List.not_mem_nil, or_false] at this ⊢
    tauto

theorem stops_nil : Stops [] := by intro c r' e; cases e

theorem stops_cons {c : Char} (h : c ∈ [' ', '\t', '\n', '\r', ',', ']', '}']) (r : Name) :
    Stops (c :: r) := by
  intro x r' e
  rw [List.cons.injEq] at e
  rwa [← e.1]

/-! ## One step -/

theorem parseValue_str (F : Floats) (n : ℕ) (r : Name) : parseValue J F (n + 1) ('"' :: r) =
    match scanString J r with
    | .error e => .error e
    | .ok (s, r1) => .ok (.str s, r1) := by
  rw [parseValue.eq_def]; rfl

theorem parseValue_arr (F : Floats) (n : ℕ) (r : Name) : parseValue J F (n + 1) ('[' :: r) =
    match skipSpace r with
    | ']' :: r1 => .ok (.arr [], r1)
    | r1 =>
      match parseElems J F n r1 with
      | .error e => .error e
      | .ok (l, r2) => .ok (.arr l, r2) := by
  rw [parseValue.eq_def]; rfl

theorem parseValue_obj (F : Floats) (n : ℕ) (r : Name) : parseValue J F (n + 1) ('{' :: r) =
    match skipSpace r with
    | '}' :: r1 => .ok (.obj [], r1)
    | r1 =>
      match parseMembers J F n r1 with
      | .error e => .error e
      | .ok (l, r2) => .ok (.obj (dictUpdate [] l), r2) := by
  rw [parseValue.eq_def]; rfl

/-- A value that is a word or a number. -/
def parseAtom (F : Floats) (t : Name) : Py (JV α × Name) :=
  match scanWord t with
  | some p => .ok p
  | none =>
    match scanNumber F t with
    | some p => .ok p
    | none => .error .dataIOError

theorem parseValue_other (F : Floats) (n : ℕ) {t : Name}
    (h : ∀ c r, t = c :: r → c ≠ '"' ∧ c ≠ '[' ∧ c ≠ '{') : parseValue J F (n + 1) t = parseAtom F t := by
  rw [parseValue.eq_def]
  simp only
  split
  · exact absurd rfl (h _ _ rfl).1
  · exact absurd rfl (h _ _ rfl).2.1
  · exact absurd rfl (h _ _ rfl).2.2
  · rfl

theorem head_cases (t : Name) : (∃ r, t = '"' :: r) ∨ (∃ r, t = '[' :: r) ∨ (∃ r, t = '{' :: r) ∨
    ∀ c r, t = c :: r → c ≠ '"' ∧ c ≠ '[' ∧ c ≠ '{' := by
  cases t with
  | nil => right; right; right; intro c r e; cases e
  | cons c r =>
    by_cases h1 : c = '"'
    · left; exact ⟨r, by rw [h1]⟩
    by_cases h2 : c = '['
    · right; left; exact ⟨r, by rw [h2]⟩
    by_cases h3 : c = '{'
    · right; right; left; exact ⟨r, by rw [h3]⟩
    right; right; right
    intro c' r' e
    rw [List.cons.injEq] at e
    rw [← e.1]
    exact ⟨h1, h2, h3⟩

/-! ## Soundness -/

theorem elems_gap {F : Floats} {g t : Name} {l : List (JV α)} (hg : Gap g) (h : JElemsOf B F t l) :
    JElemsOf B F (g ++ t) l := by
  cases h with
  | one h1 h2 h3 =>
    have := JElemsOf.one (gap_append hg h1) h2 h3
    simpa [List.append_assoc] using this
  | more h1 h2 h3 h4 =>
    have := JElemsOf.more (gap_append hg h1) h2 h3 h4
    simpa [List.append_assoc] using this

theorem members_gap {F : Floats} {g t : Name} {l : List (List α × JV α)} (hg : Gap g) (h : JMembersOf B F t l) :
    JMembersOf B F (g ++ t) l := by
  cases h with
  | one h1 h2 h3 h4 h5 h6 =>
    have := JMembersOf.one (gap_append hg h1) h2 h3 h4 h5 h6
    simpa [List.append_assoc] using this
  | more h1 h2 h3 h4 h5 h6 h7 =>
    have := JMembersOf.more (gap_append hg h1) h2 h3 h4 h5 h6 h7
    simpa [List.append_assoc] using this

theorem parse_sound (hR : ReadsAs J B) (F : Floats) (n : ℕ) :
    (∀ t v r, parseValue J F n t = .ok (v, r) → ∃ w, t = w ++ r ∧ JTextOf B F w v) ∧
    (∀ t l r, parseElems J F n t = .ok (l, r) → ∃ w, t = w ++ ']' :: r ∧ JElemsOf B F w l) ∧
    (∀ t l r, parseMembers J F n t = .ok (l, r) → ∃ w, t = w ++ '}' :: r ∧ JMembersOf B F w l) := by
  induction n with
  | zero => refine ⟨?_, ?_, ?_⟩ <;> · intro t v r h; cases h
  | succ n ih =>
    obtain ⟨ihv, ihe, ihm⟩ := ih
    refine ⟨?_, ?_, ?_⟩
    · intro t v r h
      rcases head_cases t with ⟨t', rfl⟩ | ⟨t', rfl⟩ | ⟨t', rfl⟩ | ho
      · rw [parseValue_str] at h
        split at h
        · cases h
        · rename_i s r1 hs
          cases h
          obtain ⟨b, rfl, hb⟩ := scanString_sound hR hs
          exact ⟨'"' :: b ++ ['"'], by simp, .str hb⟩
      · rw [parseValue_arr] at h
        obtain ⟨g, e, hg⟩ := skipSpace_split t'
        split at h
        · rename_i r1 hr
          cases h
          rw [hr] at e
          exact ⟨'[' :: g ++ [']'], by rw [e]; simp, .emptyArr hg⟩
        · split at h
          · cases h
          · rename_i l r2 he
            cases h
            obtain ⟨w, hw, hl⟩ := ihe _ _ _ he
            rw [hw] at e
            exact ⟨'[' :: (g ++ w) ++ [']'], by rw [e]; simp, .arr (elems_gap hg hl)⟩
      · rw [parseValue_obj] at h
        obtain ⟨g, e, hg⟩ := skipSpace_split t'
        split at h
        · rename_i r1 hr
          cases h
          rw [hr] at e
          exact ⟨'{' :: g ++ ['}'], by rw [e]; simp, .emptyObj hg⟩
        · split at h
          · cases h
          · rename_i l r2 he
            cases h
            obtain ⟨w, hw, hl⟩ := ihm _ _ _ he
            rw [hw] at e
            exact ⟨'{' :: (g ++ w) ++ ['}'], by rw [e]; simp, .obj (members_gap hg hl)⟩
      · rw [parseValue_other F n ho] at h
        unfold parseAtom at h
        split at h
        · rename_i p hp
          cases h
          exact scanWord_sound hp
        · split at h
          · rename_i p hp
            cases h
            exact scanNumber_sound hp
          · cases h
    · intro t l r h
      rw [parseElems.eq_def] at h
      simp only at h
      split at h
      · cases h
      · rename_i v r0 hv
        obtain ⟨w, rfl, hw⟩ := ihv _ _ _ hv
        obtain ⟨g, e, hg⟩ := skipSpace_split r0
        split at h
        · rename_i r1 hr
          cases h
          rw [hr] at e
          refine ⟨[] ++ w ++ g, ?_, .one gap_nil hw hg⟩
          rw [e]; simp
        · rename_i r1 hr
          rw [hr] at e
          split at h
          · cases h
          · rename_i l' r2 he
            cases h
            obtain ⟨w', hw', hl⟩ := ihe _ _ _ he
            obtain ⟨g', e', hg'⟩ := skipSpace_split r1
            rw [hw'] at e'
            refine ⟨[] ++ w ++ g ++ ',' :: (g' ++ w'), ?_, .more gap_nil hw hg (elems_gap hg' hl)⟩
            rw [e, e']; simp
        · cases h
    · intro t l r h
      rw [parseMembers.eq_def] at h
      simp only at h
      split at h
      · rename_i r0
        split at h
        · cases h
        · rename_i k r1 hk
          obtain ⟨b, rfl, hb⟩ := scanString_sound hR hk
          obtain ⟨g1, e1, hg1⟩ := skipSpace_split r1
          split at h
          · rename_i r2 hr2
            rw [hr2] at e1
            obtain ⟨g2, e2, hg2⟩ := skipSpace_split r2
            split at h
            · cases h
            · rename_i v r3 hv
              obtain ⟨w, e3, hw⟩ := ihv _ _ _ hv
              rw [e3] at e2
              obtain ⟨g3, e4, hg3⟩ := skipSpace_split r3
              split at h
              · rename_i r4 hr4
                cases h
                rw [hr4] at e4
                refine ⟨[] ++ '"' :: b ++ '"' :: g1 ++ ':' :: g2 ++ w ++ g3, ?_,
                  .one gap_nil hb hg1 hg2 hw hg3⟩
                rw [e1, e2, e4]; simp
              · rename_i r4 hr4
                rw [hr4] at e4
                split at h
                · cases h
                · rename_i l' r5 hm
                  cases h
                  obtain ⟨w', hw', hl⟩ := ihm _ _ _ hm
                  obtain ⟨g', e', hg'⟩ := skipSpace_split r4
                  rw [hw'] at e'
                  refine ⟨[] ++ '"' :: b ++ '"' :: g1 ++ ':' :: g2 ++ w ++ g3 ++ ',' :: (g' ++ w'), ?_,
                    .more gap_nil hb hg1 hg2 hw hg3 (members_gap hg' hl)⟩
                  rw [e1, e2, e4, e']; simp
              · cases h
          · cases h
      · cases h

/-! ## Completeness -/

theorem intLit_head {w : Name} {n : ℤ} (h : IntLit w n) : ∃ c t, w = c :: t ∧ (c.isDigit = true ∨ c = '-') := by
  obtain ⟨k, ⟨rfl, _⟩ | ⟨rfl, _⟩⟩ := h
  · obtain ⟨c, w, e, hc, _⟩ := toDigits_cons k
    exact ⟨c, w, e, Or.inl hc⟩
  · exact ⟨_, _, rfl, Or.inr rfl⟩

theorem floatLit_head {w : Name} (h : FloatLit w) : ∃ c t, w = c :: t ∧ (c.isDigit = true ∨ c = '-') := by
  obtain ⟨sign, k, frac, exp, rfl, hs, _⟩ := h
  rcases hs with rfl | rfl
  · obtain ⟨c, w, e, hc, _⟩ := toDigits_cons k
    exact ⟨c, w ++ frac ++ exp, by rw [e]; rfl, Or.inl hc⟩
  · exact ⟨'-', _, rfl, Or.inr rfl⟩

theorem digit_head {c : Char} (h : c.isDigit = true ∨ c = '-') :
    c ∉ [' ', '\t', '\n', '\r', ',', ']', '}'] ∧ c ≠ '"' ∧ c ≠ '[' ∧ c ≠ '{' := by
  simp only [List.mem_cons, List.not_mem_nil, or_false, not_or]
  refine ⟨⟨?_, ?_, ?_, ?_, ?_, ?_, ?_⟩, ?_, ?_, ?_⟩ <;>
    (rintro rfl; exact absurd h (by decide))

theorem jtext_head {F : Floats} {t : Name} {v : JV α} (h : JTextOf B F t v) :
    ∃ c t', t = c :: t' ∧ c ∉ [' ', '\t', '\n', '\r', ',', ']', '}'] := by
  cases h with
  | null => exact ⟨_, _, rfl, by decide⟩
  | true => exact ⟨_, _, rfl, by decide⟩
  | false => exact ⟨_, _, rfl, by decide⟩
  | int h => obtain ⟨c, t, e, hc⟩ := intLit_head h; exact ⟨c, t, e, (digit_head hc).1⟩
  | float h => obtain ⟨c, t, e, hc⟩ := floatLit_head h; exact ⟨c, t, e, (digit_head hc).1⟩
  | word h => rcases h with rfl | rfl | rfl <;> exact ⟨_, _, rfl, by decide⟩
  | str => exact ⟨_, _, rfl, by decide⟩
  | emptyArr => exact ⟨_, _, rfl, by decide⟩
  | arr => exact ⟨_, _, rfl, by decide⟩
  | emptyObj => exact ⟨_, _, rfl, by decide⟩
  | obj => exact ⟨_, _, rfl, by decide⟩

theorem head_space {c : Char} (h : c ∉ [' ', '\t', '\n', '\r', ',', ']', '}']) : c ∉ [' ', '\t', '\n', '\r'] := by
  simp only [List.mem_cons, List.not_mem_nil, or_false, not_or] at h ⊢
  tauto

/-- Space before a value is skipped, and only that. -/
theorem skipSpace_value {F : Floats} {g t : Name} {v : JV α} (hg : Gap g) (h : JTextOf B F t v) (r : Name) :
    skipSpace (g ++ (t ++ r)) = t ++ r := by
  obtain ⟨c, t', rfl, hc⟩ := jtext_head h
  rw [skipSpace_gap hg, List.cons_append, skipSpace_cons (head_space hc)]

theorem parse_number {F : Floats} (n : ℕ) {w r : Name} {v : JV α}
    (h : ∃ c t, w = c :: t ∧ (c.isDigit = true ∨ c = '-')) (hw : scanWord (α := α) (w ++ r) = none)
    (hs : scanNumber F (w ++ r) = some (v, r)) : parseValue J F (n + 1) (w ++ r) = .ok (v, r) := by
  obtain ⟨c, t, rfl, hc⟩ := h
  rw [parseValue_other]
  · unfold parseAtom
    rw [hw, hs]
  · intro c' r' e
    rw [List.cons_append, List.cons.injEq] at e
    rw [← e.1]
    exact (digit_head hc).2

theorem parse_word {F : Floats} (n : ℕ) {c : Char} {w r : Name} {v : JV α} (hc : c ≠ '"' ∧ c ≠ '[' ∧ c ≠ '{')
    (hs : scanWord (c :: w) = some (v, r)) : parseValue J F (n + 1) (c :: w) = .ok (v, r) := by
  rw [parseValue_other]
  · unfold parseAtom
    rw [hs]
  · intro c' r' e
    rw [List.cons.injEq] at e
    rw [← e.1]
    exact hc

omit [DecidableEq α] in
theorem floatLit_word {w : Name} (h : FloatLit w) (r : Name) : scanWord (α := α) (w ++ r) = none := by
  obtain ⟨sign, k, frac, exp, rfl, hs, _⟩ := h
  have := scanWord_number (α := α) k (frac ++ exp ++ r)
  rcases hs with rfl | rfl
  · simpa [List.append_assoc] using this.1
  · simpa [List.append_assoc] using this.2

omit [DecidableEq α] in
theorem intLit_word {w : Name} {n : ℤ} (h : IntLit w n) (r : Name) : scanWord (α := α) (w ++ r) = none := by
  obtain ⟨k, ⟨rfl, _⟩ | ⟨rfl, _⟩⟩ := h
  · exact (scanWord_number k r).1
  · exact (scanWord_number k r).2

theorem parse_complete (hR : ReadsAs J B) (F : Floats) (n : ℕ) :
    (∀ t v, JTextOf B F t v → 2 * t.length ≤ n → ∀ r, Stops r → parseValue J F n (t ++ r) = .ok (v, r)) ∧
    (∀ t l, JElemsOf B F t l → 2 * t.length + 1 ≤ n → ∀ r,
      parseElems J F n (skipSpace (t ++ ']' :: r)) = .ok (l, r)) ∧
    (∀ t l, JMembersOf B F t l → 2 * t.length + 1 ≤ n → ∀ r,
      parseMembers J F n (skipSpace (t ++ '}' :: r)) = .ok (l, r)) := by
  induction n with
  | zero =>
    refine ⟨?_, ?_, ?_⟩
    · intro t v h hn
      obtain ⟨c, t', rfl, _⟩ := jtext_head h
      simp at hn
    · intro t l h hn; simp at hn
    · intro t l h hn; simp at hn
  | succ n ih =>
    obtain ⟨ihv, ihe, ihm⟩ := ih
    refine ⟨?_, ?_, ?_⟩
    · intro t v h hn r hr
      cases h with
      | null => exact parse_word n (by decide) (scanWord_null r)
      | true => exact parse_word n (by decide) (scanWord_true r)
      | false => exact parse_word n (by decide) (scanWord_false r)
      | int h => exact parse_number n (intLit_head h) (intLit_word h r) (scanNumber_int h hr)
      | float h => exact parse_number n (floatLit_head h) (floatLit_word h r) (scanNumber_float h hr)
      | word h =>
        have := scanWord_float (α := α) h r
        rcases h with rfl | rfl | rfl <;> exact parse_word n (by decide) this
      | @str t s h =>
        rw [show '"' :: t ++ ['"'] ++ r = '"' :: (t ++ '"' :: r) by simp, parseValue_str,
          scanString_complete hR h]
      | @emptyArr g h =>
        rw [show '[' :: g ++ [']'] ++ r = '[' :: (g ++ ']' :: r) by simp, parseValue_arr, skipSpace_gap h,
          skipSpace_cons (by decide)]
        rfl
      | @arr t l h =>
        rw [show '[' :: t ++ [']'] ++ r = '[' :: (t ++ ']' :: r) by simp, parseValue_arr]
        have hp := ihe t l h (by simp at hn; omega) r
        have hh : ∀ r1, skipSpace (t ++ ']' :: r) ≠ ']' :: r1 := by
          intro r1 e
          cases h with
          | one h1 h2 h3 =>
            rw [List.append_assoc, List.append_assoc, skipSpace_value h1 h2] at e
            obtain ⟨c, t', rfl, hc⟩ := jtext_head h2
            rw [List.cons_append, List.cons.injEq] at e
            rw [e.1] at hc
            exact absurd hc (by decide)
          | more h1 h2 h3 h4 =>
            rw [List.append_assoc, List.append_assoc, List.append_assoc, skipSpace_value h1 h2] at e
            obtain ⟨c, t', rfl, hc⟩ := jtext_head h2
            rw [List.cons_append, List.cons.injEq] at e
            rw [e.1] at hc
            exact absurd hc (by decide)
        split
        · rename_i r1 heq; exact absurd heq (hh r1)
        · rw [hp]
      | @emptyObj g h =>
        rw [show '{' :: g ++ ['}'] ++ r = '{' :: (g ++ '}' :: r) by simp, parseValue_obj, skipSpace_gap h,
          skipSpace_cons (by decide)]
        rfl
      | @obj t l h =>
        rw [show '{' :: t ++ ['}'] ++ r = '{' :: (t ++ '}' :: r) by simp, parseValue_obj]
        have hp := ihm t l h (by simp at hn; omega) r
        have hh : ∀ r1, skipSpace (t ++ '}' :: r) ≠ '}' :: r1 := by
          intro r1 e
          cases h with
          | one h1 =>
            simp only [List.append_assoc, List.cons_append] at e
            rw [skipSpace_gap h1, skipSpace_cons (by decide), List.cons.injEq] at e
            exact absurd e.1 (by decide)
          | more h1 =>
            simp only [List.append_assoc, List.cons_append] at e
            rw [skipSpace_gap h1, skipSpace_cons (by decide), List.cons.injEq] at e
            exact absurd e.1 (by decide)
        split
        · rename_i r1 heq; exact absurd heq (hh r1)
        · rw [hp]
    · intro t l h hn r
      cases h with
      | @one g t g' v h1 h2 h3 =>
        simp only [List.append_assoc]
        rw [skipSpace_value h1 h2, parseElems.eq_def]
        simp only
        rw [ihv t v h2 (by simp at hn; omega) _ (gap_stops h3 (stops_cons (by decide) r))]
        simp only
        rw [skipSpace_gap h3, skipSpace_cons (by decide)]
        rfl
      | @more g t g' r' v l h1 h2 h3 h4 =>
        simp only [List.append_assoc, List.cons_append]
        rw [skipSpace_value h1 h2, parseElems.eq_def]
        simp only
        rw [ihv t v h2 (by simp at hn; omega) _ (gap_stops h3 (stops_cons (by decide) _))]
        simp only
        rw [skipSpace_gap h3, skipSpace_cons (by decide)]
        simp only
        rw [ihe r' l h4 (by simp at hn; omega) r]
    · intro t l h hn r
      cases h with
      | @one g b g1 g2 t g3 k v h1 h2 h3 h4 h5 h6 =>
        simp only [List.append_assoc, List.cons_append]
        rw [skipSpace_gap h1, skipSpace_cons (by decide), parseMembers.eq_def]
        simp only
        rw [scanString_complete hR h2]
        simp only
        rw [skipSpace_gap h3, skipSpace_cons (by decide)]
        simp only
        rw [skipSpace_value h4 h5, ihv t v h5 (by simp at hn; omega) _ (gap_stops h6 (stops_cons (by decide) r))]
        simp only
        rw [skipSpace_gap h6, skipSpace_cons (by decide)]
        rfl
      | @more g b g1 g2 t g3 r' k v l h1 h2 h3 h4 h5 h6 h7 =>
        simp only [List.append_assoc, List.cons_append]
        rw [skipSpace_gap h1, skipSpace_cons (by decide), parseMembers.eq_def]
        simp only
        rw [scanString_complete hR h2]
        simp only
        rw [skipSpace_gap h3, skipSpace_cons (by decide)]
        simp only
        rw [skipSpace_value h4 h5, ihv t v h5 (by simp at hn; omega) _ (gap_stops h6 (stops_cons (by decide) _))]
        simp only
        rw [skipSpace_gap h6, skipSpace_cons (by decide)]
        simp only
        rw [ihm r' l h7 (by simp at hn; omega) r]

/-! ## Documents -/

theorem parse_doc (hR : ReadsAs J B) (F : Floats) {n : ℕ} {text : Name} {v : JV α} (hn : 2 * text.length ≤ n) :
    (∃ r, parseValue J F n (skipSpace text) = .ok (v, r) ∧ skipSpace r = []) ↔ JDocOf B F text v := by
  constructor
  · rintro ⟨r, h, hr⟩
    obtain ⟨w, e, hw⟩ := (parse_sound hR F n).1 _ _ _ h
    obtain ⟨g, e1, hg⟩ := skipSpace_split text
    obtain ⟨g', e2, hg'⟩ := skipSpace_split r
    rw [hr, List.append_nil] at e2
    rw [← e2] at hg'
    refine ⟨g, w, r, ?_, hg, hw, hg'⟩
    rw [List.append_assoc, ← e]
    exact e1
  · rintro ⟨g, t, g', rfl, hg, ht, hg'⟩
    refine ⟨g', ?_, skipSpace_all hg'⟩
    rw [List.append_assoc, skipSpace_value hg ht]
    have hs : Stops g' := by
      have := gap_stops hg' stops_nil
      rwa [List.append_nil] at this
    exact (parse_complete hR F n).1 t v ht (by simp at hn; omega) g' hs

theorem parseJsonOf_iff (hR : ReadsAs J B) (F : Floats) (text : Name) (v : JV α) :
    parseJsonOf J F text = .ok v ↔ JDocOf B F text v := by
  rw [← parse_doc hR F (n := 2 * text.length + 1) (by omega)]
  unfold parseJsonOf
  constructor
  · intro h
    split at h
    · cases h
    · rename_i v' r hv
      split_ifs at h with h0
      cases h
      exact ⟨r, hv, h0⟩
  · rintro ⟨r, hv, h0⟩
    rw [hv]
    simp only
    rw [if_pos h0]

theorem parseJson_iff (F : Floats) (text : Name) (v : JVal) : parseJson F text = .ok v ↔ JDoc F text v :=
  parseJsonOf_iff reads_units F text v

end SegEval
