import Verif.Spec.JsonText
import Mathlib.Tactic.Push
import Mathlib.Tactic.Ring
import Mathlib.Tactic.Linarith

/-!
# Strings in JSON texts
-/

namespace SegEval

open Spec

/-! ## Hexadecimal digits -/

theorem hexVal_small : ∀ k < 128, ∀ d < 16, hexVal (Char.ofNat k) = some d ↔
    (Char.ofNat k = Nat.digitChar d ∨ Char.ofNat k = (Nat.digitChar d).toUpper) := by
  decide +kernel

theorem hexVal_lt {c : Char} {d : ℕ} (h : hexVal c = some d) : c.toNat < 128 ∧ d < 16 := by
  unfold hexVal at h
  have le : ∀ a b : Char, a ≤ b → a.toNat ≤ b.toNat := fun a b h => h
  split_ifs at h with h1 h2 h3
  · rw [Option.some.injEq] at h
    simp only [Char.isDigit, Bool.and_eq_true, decide_eq_true_eq] at h1
    have e1 : c.val.toNat ≥ 48 := h1.1
    have e2 : c.val.toNat ≤ 57 := h1.2
    have : c.toNat = c.val.toNat := rfl
    omega
  · rw [Option.some.injEq] at h
    have e1 := le _ _ h2.1
    have e2 := le _ _ h2.2
    have : 'a'.toNat = 97 := rfl
    have : 'f'.toNat = 102 := rfl
    omega
  · rw [Option.some.injEq] at h
    have e1 := le _ _ h3.1
    have e2 := le _ _ h3.2
    have : 'A'.toNat = 65 := rfl
    have : 'F'.toNat = 70 := rfl
    omega

theorem hexVal_iff {c : Char} {d : ℕ} : hexVal c = some d ↔ HexDigit c d := by
  unfold HexDigit
  constructor
  · intro h
    obtain ⟨h1, h2⟩ := hexVal_lt h
    refine ⟨h2, ?_⟩
    have := (hexVal_small c.toNat h1 d h2)
    rw [Char.ofNat_toNat] at this
    exact this.1 h
  · rintro ⟨h2, h⟩
    have up : ∀ d < 16, (Nat.digitChar d).toNat < 128 ∧ ((Nat.digitChar d).toUpper).toNat < 128 := by
      decide +kernel
    have h1 : c.toNat < 128 := by
      rcases h with h | h
      · rw [h]; exact (up d h2).1
      · rw [h]; exact (up d h2).2
    have := (hexVal_small c.toNat h1 d h2)
    rw [Char.ofNat_toNat] at this
    exact this.2 h

theorem hexVal4_iff {a b c d : Char} {n : ℕ} : hexVal4 a b c d = some n ↔ Hex4 [a, b, c, d] n := by
  unfold hexVal4 Hex4
  constructor
  · intro h
    split at h
    · rename_i x y z w hx hy hz hw
      rw [Option.some.injEq] at h
      exact ⟨a, b, c, d, x, y, z, w, rfl, hexVal_iff.1 hx, hexVal_iff.1 hy, hexVal_iff.1 hz,
        hexVal_iff.1 hw, by omega⟩
    · cases h
  · rintro ⟨a', b', c', d', x, y, z, w, he, hx, hy, hz, hw, rfl⟩
    simp only [List.cons.injEq, and_true] at he
    obtain ⟨rfl, rfl, rfl, rfl⟩ := he
    rw [hexVal_iff.2 hx, hexVal_iff.2 hy, hexVal_iff.2 hz, hexVal_iff.2 hw]
    simp only [Option.some.injEq]
    omega

theorem hex4_repr {n : ℕ} (h : n < 65536) : Hex4 (hexRepr n) n := by
  refine ⟨_, _, _, _, n / 4096 % 16, n / 256 % 16, n / 16 % 16, n % 16, rfl,
    ⟨Nat.mod_lt _ (by decide), Or.inl rfl⟩, ⟨Nat.mod_lt _ (by decide), Or.inl rfl⟩,
    ⟨Nat.mod_lt _ (by decide), Or.inl rfl⟩, ⟨Nat.mod_lt _ (by decide), Or.inl rfl⟩, by omega⟩

theorem hex4_four {w : Name} {n : ℕ} (h : Hex4 w n) : ∃ a b c d, w = [a, b, c, d] := by
  obtain ⟨a, b, c, d, _, _, _, _, e, _⟩ := h
  exact ⟨a, b, c, d, e⟩

theorem unescape_iff {e c : Char} : unescape e = some c ↔ (e, c) ∈ escapes := by
  unfold unescape escapes
  simp only [List.mem_cons, Prod.mk.injEq, List.not_mem_nil, or_false]
  split_ifs with h1 h2 h3 h4 h5 h6 h7 h8
  all_goals first
    | (subst_vars; simp +decide [eq_comm]; done)
    | (simp only [h1, h2, h3, h4, h5, h6, h7, h8, false_and, or_false])

/-! ## Code units -/

/-- The body of a string and its code units. -/
inductive UnitsOf : Name → List ℕ → Prop
  | nil : UnitsOf [] []
  | plain {c : Char} {t : Name} {us : List ℕ} : 32 ≤ c.toNat → c ≠ '"' → c ≠ '\\' → UnitsOf t us →
      UnitsOf (c :: t) (c.toNat :: us)
  | escape {e c : Char} {t : Name} {us : List ℕ} : (e, c) ∈ escapes → UnitsOf t us →
      UnitsOf ('\\' :: e :: t) (c.toNat :: us)
  | code {w : Name} {n : ℕ} {t : Name} {us : List ℕ} : Hex4 w n → UnitsOf t us →
      UnitsOf ('\\' :: 'u' :: w ++ t) (n :: us)

theorem lt_space {c : Char} : c < ' ' ↔ c.toNat < 32 := Iff.rfl

theorem scanUnits_quote (r : Name) : scanUnits ('"' :: r) = some ([], r) := by
  rw [scanUnits.eq_def]; rfl

theorem scanUnits_plain {c : Char} (h1 : c ≠ '"') (h2 : c ≠ '\\') (r : Name) :
    scanUnits (c :: r) =
      if c < ' ' then none else (scanUnits r).map (fun p => (c.toNat :: p.1, p.2)) := by
  rw [scanUnits.eq_def]; simp only; rw [if_neg h1, if_neg h2]

theorem scanUnits_code (a b c d : Char) (r : Name) :
    scanUnits ('\\' :: 'u' :: a :: b :: c :: d :: r) =
      match hexVal4 a b c d with
      | none => none
      | some n => (scanUnits r).map (fun p => (n :: p.1, p.2)) := by
  rw [scanUnits.eq_def]; rfl

theorem scanUnits_escape {e : Char} (he : e ≠ 'u') (r : Name) :
    scanUnits ('\\' :: e :: r) =
      match unescape e with
      | none => none
      | some x => (scanUnits r).map (fun p => (x.toNat :: p.1, p.2)) := by
  rw [scanUnits.eq_def]
  simp only
  rw [if_neg (by decide), if_pos trivial]
  split
  · rename_i heq
    rw [List.cons.injEq] at heq
    exact absurd heq.1 he
  · rename_i heq
    rw [List.cons.injEq] at heq
    obtain ⟨rfl, rfl⟩ := heq
    rfl
  · rename_i heq; cases heq

theorem scanUnits_short {e : Char} {r : Name} (he : unescape e = none)
    (h : ∀ a b c d r', e = 'u' → r = a :: b :: c :: d :: r' → False) :
    scanUnits ('\\' :: e :: r) = none := by
  rw [scanUnits.eq_def]
  simp only
  rw [if_neg (by decide)]
  simp only [if_true, he]

theorem unescape_u {e c : Char} (h : unescape e = some c) : e ≠ 'u' := by
  rintro rfl
  revert h
  have : unescape 'u' = none := by decide
  rw [this]
  exact fun h => by cases h

theorem map_pair {o : Option (List ℕ × Name)} {n : ℕ} {us : List ℕ} {r : Name}
    (h : o.map (fun p => (n :: p.1, p.2)) = some (us, r)) : ∃ us', us = n :: us' ∧ o = some (us', r) := by
  rw [Option.map_eq_some_iff] at h
  obtain ⟨⟨us', r'⟩, rfl, h⟩ := h
  simp only [Prod.mk.injEq] at h
  obtain ⟨rfl, rfl⟩ := h
  exact ⟨us', rfl, rfl⟩

theorem scanUnits_sound (t : Name) : ∀ {us : List ℕ} {r : Name}, scanUnits t = some (us, r) →
    ∃ b, t = b ++ '"' :: r ∧ UnitsOf b us := by
  induction t using scanUnits.induct with
  | case1 => intro us r h; cases h
  | case2 r0 =>
    intro us r h
    rw [scanUnits_quote] at h
    cases h
    exact ⟨[], rfl, .nil⟩
  | case3 a b c d r0 hn _ =>
    intro us r h
    rw [scanUnits_code, hn] at h
    cases h
  | case4 a b c d r0 n hn _ ih =>
    intro us r h
    rw [scanUnits_code, hn] at h
    obtain ⟨us', rfl, h'⟩ := map_pair h
    obtain ⟨body, rfl, hu⟩ := ih h'
    exact ⟨_, rfl, UnitsOf.code (hexVal4_iff.1 hn) hu⟩
  | case5 e r0 hs hn _ =>
    intro us r h
    rw [scanUnits_short hn hs] at h
    cases h
  | case6 e r0 hs x hx _ ih =>
    intro us r h
    rw [scanUnits_escape (unescape_u hx), hx] at h
    obtain ⟨us', rfl, h'⟩ := map_pair h
    obtain ⟨body, rfl, hu⟩ := ih h'
    exact ⟨_, rfl, UnitsOf.escape (unescape_iff.1 hx) hu⟩
  | case7 _ =>
    intro us r h
    rw [scanUnits.eq_def] at h
    cases h
  | case8 c r0 h1 h2 h3 =>
    intro us r h
    rw [scanUnits_plain h1 h2, if_pos h3] at h
    cases h
  | case9 c r0 h1 h2 h3 ih =>
    intro us r h
    rw [scanUnits_plain h1 h2, if_neg h3] at h
    obtain ⟨us', rfl, h'⟩ := map_pair h
    obtain ⟨body, rfl, hu⟩ := ih h'
    exact ⟨_, rfl, UnitsOf.plain (by rw [lt_space] at h3; omega) h1 h2 hu⟩

theorem scanUnits_complete {b : Name} {us : List ℕ} (h : UnitsOf b us) (r : Name) :
    scanUnits (b ++ '"' :: r) = some (us, r) := by
  induction h with
  | nil => exact scanUnits_quote r
  | plain h1 h2 h3 _ ih =>
    rw [List.cons_append, scanUnits_plain h2 h3, if_neg (by rw [lt_space]; omega), ih]
    rfl
  | escape he _ ih =>
    have := unescape_iff.2 he
    rw [List.cons_append, List.cons_append, scanUnits_escape (unescape_u this), this, ih]
    rfl
  | code hw _ ih =>
    obtain ⟨a, b, c, d, rfl⟩ := hex4_four hw
    simp only [List.cons_append, List.nil_append]
    rw [scanUnits_code, hexVal4_iff.2 hw, ih]
    rfl

theorem units_unique {t : Name} {us us' : List ℕ} (h : UnitsOf t us) (h' : UnitsOf t us') : us = us' := by
  have h1 := scanUnits_complete h []
  rw [scanUnits_complete h' []] at h1
  cases h1
  rfl

/-! ## Surrogates -/

theorem char_not_surrogate (c : Char) : isHigh c.toNat = false ∧ isLow c.toNat = false := by
  have := c.valid
  unfold isHigh isLow
  simp only [Bool.and_eq_false_iff, decide_eq_false_iff_not]
  have h : c.toNat < 0xd800 ∨ (0xdfff < c.toNat ∧ c.toNat < 0x110000) := this
  omega

theorem joinUnits_char (c : Char) (us : List ℕ) :
    joinUnits (c.toNat :: us) = (joinUnits us).map (c :: ·) := by
  obtain ⟨h1, h2⟩ := char_not_surrogate c
  cases us with
  | nil => simp [joinUnits, h1, h2]
  | cons v r =>
    rw [joinUnits, h1, h2, Char.ofNat_toNat]
    simp

theorem ofNat_toNat {n : ℕ} (h : isHigh n = false) (h' : isLow n = false) (hn : n < 0x110000) :
    (Char.ofNat n).toNat = n := by
  unfold isHigh at h
  unfold isLow at h'
  simp only [Bool.and_eq_false_iff, decide_eq_false_iff_not] at h h'
  have hv : n.isValidChar := by
    show n < 0xd800 ∨ (0xdfff < n ∧ n < 0x110000)
    omega
  rw [Char.ofNat, dif_pos hv]
  rfl

theorem hex4_lt {w : Name} {n : ℕ} (h : Hex4 w n) : n < 65536 := by
  obtain ⟨a, b, c, d, x, y, z, u, rfl, hx, hy, hz, hu, rfl⟩ := h
  have := hx.1
  have := hy.1
  have := hz.1
  have := hu.1
  omega

theorem string_units {b s : Name} (h : StringBody b s) : ∃ us, UnitsOf b us ∧ joinUnits us = some s := by
  induction h with
  | nil => exact ⟨[], .nil, rfl⟩
  | plain h1 h2 h3 _ ih =>
    obtain ⟨us, hu, hj⟩ := ih
    exact ⟨_, .plain h1 h2 h3 hu, by rw [joinUnits_char, hj]; rfl⟩
  | escape he _ ih =>
    obtain ⟨us, hu, hj⟩ := ih
    exact ⟨_, .escape he hu, by rw [joinUnits_char, hj]; rfl⟩
  | code hw _ ih =>
    obtain ⟨us, hu, hj⟩ := ih
    exact ⟨_, .code hw hu, by rw [joinUnits_char, hj]; rfl⟩
  | @pair w w' high low c t s hw hw' h1 h2 hc _ ih =>
    obtain ⟨us, hu, hj⟩ := ih
    refine ⟨(0xd800 + high) :: (0xdc00 + low) :: us, ?_, ?_⟩
    · have := UnitsOf.code hw (UnitsOf.code hw' hu)
      simpa using this
    · have e1 : isHigh (0xd800 + high) = true := by unfold isHigh; simp; omega
      have e2 : isLow (0xdc00 + low) = true := by unfold isLow; simp; omega
      have e3 : 0x10000 + (0xd800 + high - 0xd800) * 0x400 + (0xdc00 + low - 0xdc00) = c.toNat := by omega
      rw [joinUnits, e1, e2, e3, Char.ofNat_toNat, hj]
      rfl

/-- A surrogate among the units comes from an escape. -/
theorem units_surrogate {b : Name} {n : ℕ} {us : List ℕ} (h : UnitsOf b (n :: us))
    (hs : isHigh n = true ∨ isLow n = true) : ∃ w t, b = '\\' :: 'u' :: w ++ t ∧ Hex4 w n ∧ UnitsOf t us := by
  cases h with
  | @plain c _ _ _ _ _ _ =>
    have := char_not_surrogate c
    rw [this.1, this.2] at hs
    simp at hs
  | @escape _ c _ _ _ _ =>
    have := char_not_surrogate c
    rw [this.1, this.2] at hs
    simp at hs
  | code hw hu => exact ⟨_, _, rfl, hw, hu⟩

theorem units_string : ∀ (n : ℕ) {b s : Name} {us : List ℕ}, us.length ≤ n → UnitsOf b us →
    joinUnits us = some s → StringBody b s := by
  intro n
  induction n with
  | zero =>
    intro b s us hn hu hj
    have : us = [] := List.length_eq_zero_iff.1 (by omega)
    subst this
    cases hu
    cases hj
    exact .nil
  | succ n ih =>
    intro b s us hn hu hj
    cases us with
    | nil => exact ih (by simp) hu hj
    | cons u us =>
      rw [List.length_cons] at hn
      by_cases hh : isHigh u = true
      · cases us with
        | nil => rw [joinUnits, hh] at hj; cases hj
        | cons v us =>
          rw [joinUnits, if_pos hh] at hj
          by_cases hl : isLow v = true
          · rw [if_pos hl, Option.map_eq_some_iff] at hj
            obtain ⟨s', hj, rfl⟩ := hj
            obtain ⟨w, t, rfl, hw, hu1⟩ := units_surrogate hu (Or.inl hh)
            obtain ⟨w', t', rfl, hw', hu2⟩ := units_surrogate hu1 (Or.inr hl)
            rw [List.length_cons] at hn
            have hb := ih (by omega) hu2 hj
            unfold isHigh at hh
            unfold isLow at hl
            simp only [Bool.and_eq_true, decide_eq_true_eq] at hh hl
            obtain ⟨high, rfl⟩ : ∃ k, u = 0xd800 + k := ⟨u - 0xd800, by omega⟩
            obtain ⟨low, rfl⟩ : ∃ k, v = 0xdc00 + k := ⟨v - 0xdc00, by omega⟩
            have := StringBody.pair (c := Char.ofNat (0x10000 + (0xd800 + high - 0xd800) * 0x400 +
              (0xdc00 + low - 0xdc00))) hw hw' (by omega) (by omega) (by
                rw [ofNat_toNat]
                · omega
                · unfold isHigh; simp; omega
                · unfold isLow; simp; omega
                · omega) hb
            simpa using this
          · rw [if_neg hl] at hj; cases hj
      · rw [Bool.not_eq_true] at hh
        by_cases hl : isLow u = true
        · cases us with
          | nil => rw [joinUnits, hl] at hj; simp at hj
          | cons v us => rw [joinUnits, hh, hl] at hj; simp at hj
        · rw [Bool.not_eq_true] at hl
          have key : ∀ c : Char, c.toNat = u → ∃ s', s = c :: s' ∧ joinUnits us = some s' := by
            rintro c rfl
            rw [joinUnits_char, Option.map_eq_some_iff] at hj
            obtain ⟨s', h1, h2⟩ := hj
            exact ⟨s', h2.symm, h1⟩
          cases hu with
          | plain h1 h2 h3 hu =>
            obtain ⟨s', rfl, hj'⟩ := key _ rfl
            exact .plain h1 h2 h3 (ih (by omega) hu hj')
          | escape he hu =>
            obtain ⟨s', rfl, hj'⟩ := key _ rfl
            exact .escape he (ih (by omega) hu hj')
          | code hw hu =>
            have hlt := hex4_lt hw
            have he := ofNat_toNat hh hl (by omega)
            obtain ⟨s', rfl, hj'⟩ := key _ he
            rw [← he] at hw
            exact .code hw (ih (by omega) hu hj')

/-! ## scanString -/

/-- `B` says what `J` makes of the units between the quotes. -/
def ReadsAs {α : Type} (J : List ℕ → Option (List α)) (B : Name → List α → Prop) : Prop :=
  ∀ b s, B b s ↔ ∃ us, UnitsOf b us ∧ J us = some s

theorem reads_units : ReadsAs joinUnits StringBody :=
  fun _ _ => ⟨string_units, fun ⟨_, hu, hj⟩ => units_string _ le_rfl hu hj⟩

theorem scanString_complete {α : Type} {J : List ℕ → Option (List α)} {B : Name → List α → Prop}
    (hR : ReadsAs J B) {b : Name} {s : List α} (h : B b s) (r : Name) :
    scanString J (b ++ '"' :: r) = .ok (s, r) := by
  obtain ⟨us, hu, hj⟩ := (hR _ _).1 h
  unfold scanString
  rw [scanUnits_complete hu]
  simp only [hj]

theorem scanString_sound {α : Type} {J : List ℕ → Option (List α)} {B : Name → List α → Prop}
    (hR : ReadsAs J B) {t r : Name} {s : List α} (h : scanString J t = .ok (s, r)) :
    ∃ b, t = b ++ '"' :: r ∧ B b s := by
  unfold scanString at h
  split at h
  · cases h
  · rename_i us r' hs
    split at h
    · cases h
    · rename_i s' hj
      cases h
      obtain ⟨b, rfl, hu⟩ := scanUnits_sound t hs
      exact ⟨b, rfl, (hR _ _).2 ⟨us, hu, hj⟩⟩

theorem scanString_error {α : Type} {J : List ℕ → Option (List α)} {t : Name} {e : PyErr}
    (h : scanString J t = .error e) : e = .dataIOError ∨ e = .unmodelled := by
  unfold scanString at h
  split at h
  · cases h; exact Or.inl rfl
  · split at h
    · cases h; exact Or.inr rfl
    · cases h

/-! ## dumpString -/

theorem escape_string (c : Char) {t s : Name} (h : StringBody t s) :
    StringBody (escapeChar c ++ t) (c :: s) := by
  unfold escapeChar
  have le : ∀ a b : Char, a ≤ b ↔ a.toNat ≤ b.toNat := fun a b => Iff.rfl
  split_ifs with h1 h2 h3 h4 h5 h6 h7 h8 h9
  · subst h1; exact .escape (by decide) h
  · subst h2; exact .escape (by decide) h
  · subst h3; exact .escape (by decide) h
  · subst h4; exact .escape (by decide) h
  · subst h5; exact .escape (by decide) h
  · subst h6; exact .escape (by decide) h
  · subst h7; exact .escape (by decide) h
  · exact .plain (by have := (le _ _).1 h8.1; exact this) h1 h2 h
  · exact .code (hex4_repr h9) h
  · have hv : c.toNat < 0x110000 := by
      have h : c.toNat < 0xd800 ∨ (0xdfff < c.toNat ∧ c.toNat < 0x110000) := c.valid
      omega
    have := StringBody.pair (c := c) (hex4_repr (n := 0xd800 + (c.toNat - 0x10000) / 0x400) (by omega))
      (hex4_repr (n := 0xdc00 + (c.toNat - 0x10000) % 0x400) (by omega)) (by omega) (by omega) (by omega) h
    simpa using this

theorem dumpString_body (s : Name) : StringBody (s.flatMap escapeChar) s := by
  induction s with
  | nil => exact .nil
  | cons c s ih => rw [List.flatMap_cons]; exact escape_string c ih

end SegEval
