import Verif.Spec.Text

namespace SegEval

open Spec

/-! ## int -/

theorem toAscii_digit (u : Unicode) {c : Char} {d : ℕ} (h : DigitOf u c d) :
    (toAscii u c).isDigit = true ∧ (toAscii u c).toNat - 48 = d := by
  have key : ∀ d < 10, (Nat.digitChar d).toNat < 128 ∧ (Nat.digitChar d).isDigit = true ∧
      (Nat.digitChar d).toNat - 48 = d := by decide
  rcases h with ⟨hd, rfl⟩ | ⟨h1, h2, k, h3, rfl⟩
  · obtain ⟨a, b, c⟩ := key d hd
    unfold toAscii
    rw [if_pos a]
    exact ⟨b, c⟩
  · unfold toAscii
    rw [if_neg (by omega), h2, h3]
    exact (key k k.2).2

theorem isDigit_digitChar {c : Char} (h : c.isDigit = true) :
    c.toNat - 48 < 10 ∧ c = Nat.digitChar (c.toNat - 48) := by
  unfold Char.isDigit at h
  simp only [ge_iff_le, Bool.and_eq_true, decide_eq_true_eq] at h
  obtain ⟨h1, h2⟩ := h
  have h1 : 48 ≤ c.toNat := h1
  have h2 : c.toNat ≤ 57 := h2
  have key : ∀ n, n < 10 → (Nat.digitChar n).toNat = n + 48 := by decide
  refine ⟨by omega, ?_⟩
  apply Char.toNat_inj.1
  rw [key _ (by omega)]
  omega

theorem digit_of_toAscii (u : Unicode) {c : Char} (h : (toAscii u c).isDigit = true) :
    DigitOf u c ((toAscii u c).toNat - 48) := by
  have key : ∀ k : Fin 10, (asciiDigit k).toNat - 48 = k := by decide
  unfold toAscii at h ⊢
  split_ifs at h ⊢ with h1 h2
  · left
    obtain ⟨a, b⟩ := isDigit_digitChar h
    exact ⟨a, b⟩
  · exact absurd h (by decide)
  · right
    cases hd : u.digit c with
    | none => rw [hd] at h; exact absurd h (by decide)
    | some k => exact ⟨by omega, by simpa using h2, k, rfl, key k⟩

theorem cSpace_toAscii (u : Unicode) (c : Char) : cSpace (toAscii u c) = true ↔ Blank u c := by
  have key : ∀ k : Fin 10, cSpace (asciiDigit k) = false := by decide
  unfold toAscii Blank
  split_ifs with h1 h2
  · simp only [cSpace, Bool.or_eq_true, decide_eq_true_eq, List.mem_cons, List.not_mem_nil, or_false]
    constructor
    · intro h; left; tauto
    · rintro (h | h)
      · tauto
      · omega
  · simp only [h2, and_true]
    constructor
    · intro _; right; omega
    · intro _; decide
  · constructor
    · intro h
      exfalso
      cases hk : u.digit c with
      | none => rw [hk] at h; exact absurd h (by decide)
      | some k => rw [hk] at h; simp only [key k] at h; cases h
    · rintro (h | h)
      · exfalso
        simp only [List.mem_cons, List.not_mem_nil, or_false] at h
        apply h1
        rcases h with rfl | rfl | rfl | rfl | rfl | rfl <;> decide
      · exact absurd h.2 h2

/-- No other character becomes a character that is neither a digit nor white space nor `?`. -/
theorem toAscii_eq (u : Unicode) {c x : Char} (hd : x.isDigit = false) (hs : x ≠ ' ') (hq : x ≠ '?')
    (hx : x.toNat < 128) : toAscii u c = x ↔ c = x := by
  have key : ∀ k : Fin 10, (asciiDigit k).isDigit = true := by decide
  unfold toAscii
  split_ifs with h1 h2
  · exact Iff.rfl
  · refine ⟨fun h => absurd h.symm hs, ?_⟩
    rintro rfl; exact absurd hx h1
  · constructor
    · intro h
      exfalso
      cases hk : u.digit c with
      | none => rw [hk] at h; exact hq h.symm
      | some k =>
        rw [hk] at h
        have := key k
        simp only at h
        rw [h, hd] at this
        cases this
    · rintro rfl; exact absurd hx h1

theorem blanks_all (u : Unicode) (s : Name) : (s.map (toAscii u)).all cSpace = true ↔ ∀ c ∈ s, Blank u c := by
  simp only [List.all_map, List.all_eq_true, Function.comp_apply, cSpace_toAscii]

theorem intDigits_blank (u : Unicode) (n : ℕ) {s : Name} (h : ∀ c ∈ s, Blank u c) :
    intDigits n true (s.map (toAscii u)) = some (n : ℤ) := by
  cases s with
  | nil => rfl
  | cons c cs =>
    have hc := (cSpace_toAscii u c).2 (h c (by simp))
    have hall := (blanks_all u (c :: cs)).2 h
    have hnd : (toAscii u c).isDigit = false := by
      revert hc
      unfold cSpace
      simp only [Bool.or_eq_true, decide_eq_true_eq]
      rintro (((((h | h) | h) | h) | h) | h) <;> rw [h] <;> decide
    have hnu : toAscii u c ≠ '_' := by
      intro h; rw [h] at hc; exact absurd hc (by decide)
    rw [List.map_cons] at hall ⊢
    rw [intDigits, if_neg (by rw [hnd]; decide), if_neg hnu, if_pos (by rw [hall]; rfl)]

theorem intDigits_num (u : Unicode) {w : Name} {n : ℕ} (h : NumText u w n) (t : Name) :
    intDigits 0 false ((w ++ t).map (toAscii u)) = intDigits n true (t.map (toAscii u)) := by
  induction h generalizing t with
  | one hd =>
    obtain ⟨h1, h2⟩ := toAscii_digit u hd
    rw [List.map_append, List.map_cons, List.map_nil, List.cons_append, intDigits, if_pos h1, h2]
    simp
  | more _ hd ih =>
    obtain ⟨h1, h2⟩ := toAscii_digit u hd
    rw [List.append_assoc, ih, List.map_append, List.map_cons, List.map_nil, List.cons_append, intDigits,
      if_pos h1, h2, Nat.mul_comm]
    rfl
  | under _ hd ih =>
    obtain ⟨h1, h2⟩ := toAscii_digit u hd
    have hu : toAscii u '_' = '_' := by
      rw [toAscii_eq u (by decide) (by decide) (by decide) (by decide)]
    rw [List.append_assoc, ih, List.map_append, List.map_cons, List.map_cons, List.map_nil, List.cons_append,
      intDigits, hu, if_neg (by decide), if_pos rfl, if_pos rfl, List.cons_append, intDigits,
      if_pos h1, h2, Nat.mul_comm]
    rfl

theorem intDigits_sound (u : Unicode) (t : Name) : ∀ (w : Name) (acc : ℕ) (last : Bool) (v : ℤ),
    (last = true → NumText u w acc) →
    (last = false → (w = [] ∧ acc = 0) ∨ ∃ w', w = w' ++ ['_'] ∧ NumText u w' acc) →
    intDigits acc last (t.map (toAscii u)) = some v →
    ∃ b p value, t = b ++ p ∧ NumText u (w ++ b) value ∧ (∀ c ∈ p, Blank u c) ∧ v = (value : ℤ) := by
  induction t with
  | nil =>
    intro w acc last v h1 _ h
    rw [List.map_nil, intDigits] at h
    cases last with
    | false => cases h
    | true =>
      cases h
      exact ⟨[], [], acc, rfl, by simpa using h1 rfl, by simp, rfl⟩
  | cons c cs ih =>
    intro w acc last v h1 h2 h
    rw [List.map_cons, intDigits] at h
    by_cases hd : (toAscii u c).isDigit = true
    · rw [if_pos hd] at h
      have hdig := digit_of_toAscii u hd
      set d := (toAscii u c).toNat - 48
      have hnum : NumText u (w ++ [c]) (acc * 10 + d) := by
        cases last with
        | true => rw [Nat.mul_comm]; exact .more (h1 rfl) hdig
        | false =>
          rcases h2 rfl with ⟨rfl, rfl⟩ | ⟨w', rfl, hw'⟩
          · simpa using NumText.one hdig
          · rw [Nat.mul_comm, List.append_assoc]; exact .under hw' hdig
      obtain ⟨b, p, value, e, hn, hp, hv⟩ := ih (w ++ [c]) _ true v (fun _ => hnum) (by simp) h
      exact ⟨c :: b, p, value, by simp [e], by simpa using hn, hp, hv⟩
    · rw [if_neg hd] at h
      by_cases hu : toAscii u c = '_'
      · rw [if_pos hu] at h
        have hc : c = '_' := (toAscii_eq u (by decide) (by decide) (by decide) (by decide)).1 hu
        subst hc
        cases last with
        | false => cases h
        | true =>
          obtain ⟨b, p, value, e, hn, hp, hv⟩ :=
            ih (w ++ ['_']) acc false v (by simp) (fun _ => Or.inr ⟨w, rfl, h1 rfl⟩) h
          exact ⟨'_' :: b, p, value, by simp [e], by simpa using hn, hp, hv⟩
      · rw [if_neg hu] at h
        split_ifs at h with hs
        simp only [Bool.and_eq_true] at hs
        cases h
        refine ⟨[], c :: cs, acc, rfl, by simpa using h1 hs.1, ?_, rfl⟩
        rw [← blanks_all u (c :: cs)]
        exact hs.2

theorem numText_head (u : Unicode) {w : Name} {n : ℕ} (h : NumText u w n) :
    ∃ c cs, w = c :: cs ∧ ∃ d, DigitOf u c d := by
  induction h with
  | one hd => exact ⟨_, [], rfl, _, hd⟩
  | more _ _ ih => obtain ⟨c, cs, rfl, hd⟩ := ih; exact ⟨c, _, rfl, hd⟩
  | under _ _ ih => obtain ⟨c, cs, rfl, hd⟩ := ih; exact ⟨c, _, rfl, hd⟩

theorem dropWhile_blank (u : Unicode) {s : Name} (h : ∀ c ∈ s, Blank u c) (t : Name) :
    ((s ++ t).map (toAscii u)).dropWhile cSpace = (t.map (toAscii u)).dropWhile cSpace := by
  induction s with
  | nil => rfl
  | cons c cs ih =>
    rw [List.cons_append, List.map_cons, List.dropWhile_cons, if_pos ((cSpace_toAscii u c).2 (h c (by simp)))]
    exact ih (fun x hx => h x (by simp [hx]))

theorem dropWhile_split (u : Unicode) (s : Name) : ∃ a t, s = a ++ t ∧ (∀ c ∈ a, Blank u c) ∧
    (s.map (toAscii u)).dropWhile cSpace = t.map (toAscii u) := by
  induction s with
  | nil => exact ⟨[], [], rfl, by simp, rfl⟩
  | cons c cs ih =>
    rw [List.map_cons, List.dropWhile_cons]
    split_ifs with h
    · obtain ⟨a, t, e, ha, hd⟩ := ih
      refine ⟨c :: a, t, by simp [e], ?_, hd⟩
      intro x hx
      rcases List.mem_cons.1 hx with rfl | hx
      · exact (cSpace_toAscii u x).1 h
      · exact ha x hx
    · exact ⟨[], c :: cs, rfl, by simp, rfl⟩

theorem pyInt_iff (u : Unicode) (s : Name) (n : ℤ) : pyInt u s = some n ↔ IntText u s n := by
  have plus : ∀ c, toAscii u c = '+' ↔ c = '+' := fun c =>
    toAscii_eq u (by decide) (by decide) (by decide) (by decide)
  have minus : ∀ c, toAscii u c = '-' ↔ c = '-' := fun c =>
    toAscii_eq u (by decide) (by decide) (by decide) (by decide)
  constructor
  · intro h
    obtain ⟨a, t, rfl, ha, hd⟩ := dropWhile_split u s
    unfold pyInt at h
    rw [hd] at h
    cases t with
    | nil => cases h
    | cons c cs =>
      rw [List.map_cons] at h
      by_cases hp : toAscii u c = '+'
      · rw [hp] at h
        simp only at h
        obtain ⟨b, p, value, e, hn, hp', hv⟩ := intDigits_sound u cs [] 0 false n (by simp) (by simp) h
        exact ⟨a, ['+'], b, p, value, by simp [e, (plus c).1 hp], ha, hp', by simpa using hn,
          Or.inr (Or.inl ⟨rfl, hv⟩)⟩
      · by_cases hm : toAscii u c = '-'
        · rw [hm] at h
          simp only [Option.map_eq_some_iff] at h
          obtain ⟨m, h, rfl⟩ := h
          obtain ⟨b, p, value, e, hn, hp', hv⟩ := intDigits_sound u cs [] 0 false m (by simp) (by simp) h
          exact ⟨a, ['-'], b, p, value, by simp [e, (minus c).1 hm], ha, hp', by simpa using hn,
            Or.inr (Or.inr ⟨rfl, by rw [hv]⟩)⟩
        · have h' : intDigits 0 false ((c :: cs).map (toAscii u)) = some n := by
            rw [List.map_cons]
            revert h
            split
            · rename_i heq; rw [List.cons.injEq] at heq; exact absurd heq.1 hp
            · rename_i heq; rw [List.cons.injEq] at heq; exact absurd heq.1 hm
            · exact id
          obtain ⟨b, p, value, e, hn, hp', hv⟩ :=
            intDigits_sound u (c :: cs) [] 0 false n (by simp) (by simp) h'
          exact ⟨a, [], b, p, value, by simp [e], ha, hp', by simpa using hn, Or.inl ⟨rfl, hv⟩⟩
  · rintro ⟨a, sign, w, p, value, rfl, ha, hp, hn, hs⟩
    have hw : intDigits 0 false ((w ++ p).map (toAscii u)) = some (value : ℤ) := by
      rw [intDigits_num u hn, intDigits_blank u value hp]
    unfold pyInt
    rw [List.append_assoc, List.append_assoc, dropWhile_blank u ha]
    rcases hs with ⟨rfl, rfl⟩ | ⟨rfl, rfl⟩ | ⟨rfl, rfl⟩
    · obtain ⟨c, cs, rfl, d, hd⟩ := numText_head u hn
      obtain ⟨h1, _⟩ := toAscii_digit u hd
      rw [List.nil_append]
      rw [List.cons_append, List.map_cons] at hw ⊢
      rw [List.dropWhile_cons, if_neg]
      · split
        · rename_i heq; rw [List.cons.injEq] at heq; rw [heq.1] at h1; exact absurd h1 (by decide)
        · rename_i heq; rw [List.cons.injEq] at heq; rw [heq.1] at h1; exact absurd h1 (by decide)
        · exact hw
      · intro hsp
        unfold cSpace at hsp
        simp only [Bool.or_eq_true, decide_eq_true_eq] at hsp
        rcases hsp with ((((h | h) | h) | h) | h) | h <;> rw [h] at h1 <;> exact absurd h1 (by decide)
    · have : toAscii u '+' = '+' := (plus '+').2 rfl
      rw [List.cons_append, List.nil_append, List.map_cons, this, List.dropWhile_cons, if_neg (by decide)]
      exact hw
    · have : toAscii u '-' = '-' := (minus '-').2 rfl
      rw [List.cons_append, List.nil_append, List.map_cons, this, List.dropWhile_cons, if_neg (by decide)]
      simp only [hw, Option.map_some]

theorem numText_toDigits (u : Unicode) (n : ℕ) : NumText u (Nat.toDigits 10 n) n := by
  induction n using Nat.strong_induction_on with
  | _ n ih =>
    by_cases h : n < 10
    · rw [Nat.toDigits_of_lt_base h]
      exact .one (Or.inl ⟨h, rfl⟩)
    · rw [Nat.toDigits_of_base_le (by decide) (by omega)]
      have := NumText.more (ih (n / 10) (by omega))
        (c := Nat.digitChar (n % 10)) (d := n % 10) (Or.inl ⟨Nat.mod_lt _ (by decide), rfl⟩)
      rwa [Nat.div_add_mod] at this

theorem intText_decimal (u : Unicode) (n : ℤ) : IntText u (decimal n) n := by
  unfold decimal
  split_ifs with h
  · exact ⟨[], ['-'], _, [], _, by simp, by simp, by simp, numText_toDigits u n.natAbs,
      Or.inr (Or.inr ⟨rfl, by omega⟩)⟩
  · exact ⟨[], [], _, [], _, by simp, by simp, by simp, numText_toDigits u n.natAbs,
      Or.inl ⟨rfl, by omega⟩⟩

end SegEval
