import Verif.Lemmas.JsonString

/-!
# Numbers and words in JSON texts
-/

namespace SegEval

open Spec

variable {α : Type}

/-! ## Digits -/

/-- The text does not go on with a digit. -/
def NoDigit (r : Name) : Prop := ∀ c r', r = c :: r' → c.isDigit = false

theorem takeWhile_digits {w r : Name} (hw : ∀ c ∈ w, c.isDigit = true) (hr : NoDigit r) :
    (w ++ r).takeWhile Char.isDigit = w ∧ (w ++ r).dropWhile Char.isDigit = r := by
  induction w with
  | nil =>
    cases r with
    | nil => exact ⟨rfl, rfl⟩
    | cons c r =>
      have := hr c r rfl
      simp [this]
  | cons c w ih =>
    have h1 := hw c (by simp)
    have h2 := ih (fun x hx => hw x (by simp [hx]))
    simp [h1, h2]

theorem takeWhile_all (t : Name) : ∀ c ∈ t.takeWhile Char.isDigit, c.isDigit = true := by
  induction t with
  | nil => simp
  | cons x t ih =>
    rw [List.takeWhile_cons]
    split_ifs with h
    · intro c hc
      rcases List.mem_cons.1 hc with rfl | hc
      · exact h
      · exact ih c hc
    · simp

theorem digit_char {c : Char} (h : c.isDigit = true) :
    c.toNat - 48 < 10 ∧ c = Nat.digitChar (c.toNat - 48) ∧ 48 ≤ c.toNat := by
  simp only [Char.isDigit, Bool.and_eq_true, decide_eq_true_eq] at h
  have e1 : c.toNat ≥ 48 := h.1
  have e2 : c.toNat ≤ 57 := h.2
  have : ∀ d < 10, Char.ofNat (d + 48) = Nat.digitChar d := by decide +kernel
  have := this (c.toNat - 48) (by omega)
  rw [Nat.sub_add_cancel e1, Char.ofNat_toNat] at this
  exact ⟨by omega, this, e1⟩

theorem digitChar_val {d : ℕ} (h : d < 10) : (Nat.digitChar d).toNat - 48 = d := by
  have : ∀ d < 10, (Nat.digitChar d).toNat - 48 = d := by decide +kernel
  exact this d h

theorem digitsVal_concat (w : Name) (c : Char) : digitsVal (w ++ [c]) = digitsVal w * 10 + (c.toNat - 48) := by
  unfold digitsVal
  rw [List.foldl_append]
  rfl

theorem digitsVal_toDigits (k : ℕ) : digitsVal (Nat.toDigits 10 k) = k := by
  induction k using Nat.strong_induction_on with
  | _ k ih =>
    by_cases h : k < 10
    · rw [Nat.toDigits_of_lt_base h]
      have := digitsVal_concat [] (Nat.digitChar k)
      rw [List.nil_append] at this
      rw [this, digitChar_val h]
      simp [digitsVal]
    · rw [Nat.toDigits_of_base_le (by decide) (by omega), digitsVal_concat, ih (k / 10) (by omega),
        digitChar_val (Nat.mod_lt _ (by decide))]
      omega

theorem digitsVal_pos {c : Char} {w : Name} (hc : c.isDigit = true) (h0 : c ≠ '0')
    (_hw : ∀ x ∈ w, x.isDigit = true) : 0 < digitsVal (c :: w) := by
  induction w using List.reverseRecOn with
  | nil =>
    obtain ⟨h1, h2, h3⟩ := digit_char hc
    simp only [digitsVal, List.foldl_cons, List.foldl_nil]
    rcases Nat.eq_zero_or_pos (c.toNat - 48) with h | h
    · rw [h] at h2; exact absurd h2 h0
    · omega
  | append_singleton w x ih =>
    rw [← List.cons_append, digitsVal_concat]
    have := ih (fun y hy => _hw y (by simp [hy]))
    omega

theorem toDigits_digitsVal {c : Char} {w : Name} (hc : c.isDigit = true) (h0 : c ≠ '0')
    (hw : ∀ x ∈ w, x.isDigit = true) : Nat.toDigits 10 (digitsVal (c :: w)) = c :: w := by
  induction w using List.reverseRecOn with
  | nil =>
    obtain ⟨h1, h2, h3⟩ := digit_char hc
    have : digitsVal [c] = c.toNat - 48 := by simp [digitsVal]
    rw [this, Nat.toDigits_of_lt_base h1, ← h2]
  | append_singleton w x ih =>
    have hp := digitsVal_pos hc h0 (w := w) (fun y hy => hw y (by simp [hy]))
    obtain ⟨h1, h2, h3⟩ := digit_char (hw x (by simp))
    rw [← List.cons_append, digitsVal_concat, Nat.toDigits_of_base_le (by decide) (by omega)]
    rw [show (digitsVal (c :: w) * 10 + (x.toNat - 48)) / 10 = digitsVal (c :: w) by omega,
      show (digitsVal (c :: w) * 10 + (x.toNat - 48)) % 10 = x.toNat - 48 by omega, ← h2,
      ih (fun y hy => hw y (by simp [hy]))]

theorem toDigits_digits (k : ℕ) : ∀ c ∈ Nat.toDigits 10 k, c.isDigit = true := by
  intro c hc
  exact Nat.isDigit_of_mem_toDigits (b := 10) (by decide) (by decide) hc

theorem toDigits_cons (k : ℕ) : ∃ c w, Nat.toDigits 10 k = c :: w ∧ c.isDigit = true ∧ (c = '0' → w = []) := by
  induction k using Nat.strong_induction_on with
  | _ k ih =>
    by_cases h : k < 10
    · rw [Nat.toDigits_of_lt_base h]
      have : ∀ k < 10, (Nat.digitChar k).isDigit = true := by decide +kernel
      exact ⟨_, [], rfl, this k h, fun _ => rfl⟩
    · obtain ⟨c, w, e, hc, hw⟩ := ih (k / 10) (by omega)
      rw [Nat.toDigits_of_base_le (by decide) (by omega), e]
      refine ⟨c, w ++ [Nat.digitChar (k % 10)], rfl, hc, ?_⟩
      intro h0
      have hw := hw h0
      subst hw
      subst h0
      have h1 := digitsVal_toDigits (k / 10)
      rw [e] at h1
      have : digitsVal ['0'] = 0 := by decide
      omega

/-! ## The parts of a number -/

theorem scanInt_sound {t w r : Name} (h : scanInt t = some (w, r)) :
    t = w ++ r ∧ w = Nat.toDigits 10 (digitsVal w) := by
  cases t with
  | nil => cases h
  | cons c t =>
    unfold scanInt at h
    simp only at h
    split_ifs at h with h1 h2
    · cases h
      rw [h1]
      exact ⟨rfl, by decide⟩
    · cases h
      refine ⟨by rw [List.cons_append, List.takeWhile_append_dropWhile], ?_⟩
      exact (toDigits_digitsVal h2 h1 (takeWhile_all t)).symm

theorem scanInt_complete (k : ℕ) {r : Name} (hr : NoDigit r) :
    scanInt (Nat.toDigits 10 k ++ r) = some (Nat.toDigits 10 k, r) := by
  have hd := toDigits_digits k
  obtain ⟨c, w, e, hc, hw⟩ := toDigits_cons k
  rw [e] at hd ⊢
  rw [List.cons_append]
  unfold scanInt
  simp only
  split_ifs with h0
  · rw [hw h0, h0]; rfl
  · obtain ⟨h1, h2⟩ := takeWhile_digits (w := w) (fun x hx => hd x (by simp [hx])) hr
    rw [h1, h2]

theorem scanInt_none {t : Name} (h : NoDigit t) : scanInt t = none := by
  cases t with
  | nil => rfl
  | cons c r =>
    have := h c r rfl
    unfold scanInt
    simp only
    rw [if_neg, if_neg]
    · simp [this]
    · rintro rfl; exact absurd this (by decide)

/-- A fraction, or nothing. -/
def Frac (f : Name) : Prop := f = [] ∨ ∃ ds, f = '.' :: ds ∧ Digits ds

/-- An exponent, or nothing. -/
def Exp (x : Name) : Prop :=
  x = [] ∨ ∃ e s ds, x = e :: s ++ ds ∧ (e = 'e' ∨ e = 'E') ∧ (s = [] ∨ s = ['+'] ∨ s = ['-']) ∧ Digits ds

theorem scanFrac_sound (t : Name) : t = (scanFrac t).1 ++ (scanFrac t).2 ∧ Frac (scanFrac t).1 := by
  unfold scanFrac
  split
  · rename_i r
    split_ifs with h
    · exact ⟨rfl, Or.inl rfl⟩
    · exact ⟨by rw [List.cons_append, List.takeWhile_append_dropWhile],
        Or.inr ⟨_, rfl, h, takeWhile_all r⟩⟩
  · exact ⟨rfl, Or.inl rfl⟩

theorem scanFrac_complete {ds r : Name} (h : Digits ds) (hr : NoDigit r) :
    scanFrac ('.' :: ds ++ r) = ('.' :: ds, r) := by
  unfold scanFrac
  obtain ⟨h1, h2⟩ := takeWhile_digits h.2 hr
  simp only [List.cons_append, h1, h2, if_neg h.1]

theorem scanFrac_nil {r : Name} (h : ∀ r', r ≠ '.' :: r') : scanFrac r = ([], r) := by
  unfold scanFrac
  split
  · rename_i r'; exact absurd rfl (h r')
  · rfl

theorem scanSign_sound (t : Name) : t = (scanSign t).1 ++ (scanSign t).2 ∧
    ((scanSign t).1 = [] ∨ (scanSign t).1 = ['+'] ∨ (scanSign t).1 = ['-']) := by
  unfold scanSign
  split <;> simp

theorem scanExp_sound (t : Name) : t = (scanExp t).1 ++ (scanExp t).2 ∧ Exp (scanExp t).1 := by
  cases t with
  | nil => exact ⟨rfl, Or.inl rfl⟩
  | cons c r =>
    unfold scanExp
    simp only
    split_ifs with h
    · obtain ⟨e, hs⟩ := scanSign_sound r
      refine ⟨?_, Or.inr ⟨_, _, _, rfl, h.1, hs, h.2, takeWhile_all _⟩⟩
      simp only
      rw [List.append_assoc, List.takeWhile_append_dropWhile, List.cons_append, ← e]
    · exact ⟨rfl, Or.inl rfl⟩

theorem digit_not_sign {c : Char} (h : c.isDigit = true) : c ≠ '+' ∧ c ≠ '-' := by
  constructor <;> (rintro rfl; exact absurd h (by decide))

theorem scanSign_complete {s ds r : Name} (hs : s = [] ∨ s = ['+'] ∨ s = ['-']) (hd : Digits ds) :
    scanSign (s ++ (ds ++ r)) = (s, ds ++ r) := by
  rcases hs with rfl | rfl | rfl
  · obtain ⟨hn, ha⟩ := hd
    cases ds with
    | nil => exact absurd rfl hn
    | cons c ds =>
      obtain ⟨h1, h2⟩ := digit_not_sign (ha c (by simp))
      unfold scanSign
      split
      · rename_i heq; simp at heq; exact absurd heq.1 h1
      · rename_i heq; simp at heq; exact absurd heq.1 h2
      · rfl
  · rfl
  · rfl

theorem scanExp_complete {e : Char} {s ds r : Name} (he : e = 'e' ∨ e = 'E')
    (hs : s = [] ∨ s = ['+'] ∨ s = ['-']) (hd : Digits ds) (hr : NoDigit r) :
    scanExp (e :: s ++ ds ++ r) = (e :: s ++ ds, r) := by
  have h1 := scanSign_complete (r := r) hs hd
  obtain ⟨h2, h3⟩ := takeWhile_digits hd.2 hr
  rw [List.cons_append, List.cons_append, List.append_assoc]
  unfold scanExp
  simp only [h1, h2, h3]
  rw [if_pos ⟨he, hd.1⟩]
  rfl

theorem scanExp_nil {r : Name} (h : ∀ c r', r = c :: r' → c ≠ 'e' ∧ c ≠ 'E') : scanExp r = ([], r) := by
  cases r with
  | nil => rfl
  | cons c r =>
    obtain ⟨h1, h2⟩ := h c r rfl
    unfold scanExp
    simp only
    rw [if_neg]
    rintro ⟨h | h, _⟩
    · exact h1 h
    · exact h2 h

/-! ## Numbers -/

/-- The text goes on with something that may follow a value. -/
def Stops (r : Name) : Prop := ∀ c r', r = c :: r' → c ∈ [' ', '\t', '\n', '\r', ',', ']', '}']

theorem stops_facts {r : Name} (h : Stops r) :
    NoDigit r ∧ (∀ r', r ≠ '.' :: r') ∧ (∀ c r', r = c :: r' → c ≠ 'e' ∧ c ≠ 'E') := by
  refine ⟨?_, ?_, ?_⟩
  · intro c r' e
    have := h c r' e
    simp only [List.mem_cons, List.not_mem_nil, or_false] at this
    rcases this with rfl | rfl | rfl | rfl | rfl | rfl | rfl <;> decide
  · intro r' e
    exact absurd (h _ _ e) (by decide)
  · intro c r' e
    have := h c r' e
    simp only [List.mem_cons, List.not_mem_nil, or_false] at this
    rcases this with rfl | rfl | rfl | rfl | rfl | rfl | rfl <;> decide

theorem scanUnsigned_sound [DecidableEq α] {B : Name → List α → Prop} {F : Floats}
    {sign t r : Name} {v : JV α} (hs : sign = [] ∨ sign = ['-'])
    (h : scanUnsigned (α := α) F sign t = some (v, r)) : ∃ w, t = w ++ r ∧ JTextOf B F (sign ++ w) v := by
  unfold scanUnsigned at h
  split at h
  · cases h
  · rename_i w r0 hi
    obtain ⟨rfl, hw⟩ := scanInt_sound hi
    obtain ⟨e1, hf⟩ := scanFrac_sound r0
    obtain ⟨e2, hx⟩ := scanExp_sound (scanFrac r0).2
    simp only at h
    split_ifs at h with h0 hsg
    · cases h
      rw [h0.1] at e1
      rw [h0.2] at e2
      refine ⟨w, ?_, ?_⟩
      · rw [List.nil_append] at e1 e2
        exact congrArg _ (e1.trans e2)
      · subst hsg
        exact .int ⟨digitsVal w, Or.inl ⟨by rw [List.nil_append]; exact hw, rfl⟩⟩
    · cases h
      rw [h0.1] at e1
      rw [h0.2] at e2
      refine ⟨w, ?_, ?_⟩
      · rw [List.nil_append] at e1 e2
        exact congrArg _ (e1.trans e2)
      · rcases hs with rfl | rfl
        · exact absurd rfl hsg
        · exact .int ⟨digitsVal w, Or.inr ⟨congrArg _ hw, rfl⟩⟩
    · cases h
      refine ⟨w ++ (scanFrac r0).1 ++ (scanExp (scanFrac r0).2).1, ?_, ?_⟩
      · rw [List.append_assoc, List.append_assoc, ← e2, ← e1]
      · rw [← List.append_assoc, ← List.append_assoc]
        refine .float ⟨sign, digitsVal w, _, _, by rw [← hw], hs, hf, hx, ?_⟩
        by_contra hc
        push Not at hc
        exact h0 hc

theorem scanNumber_sound [DecidableEq α] {B : Name → List α → Prop} {F : Floats}
    {t r : Name} {v : JV α} (h : scanNumber (α := α) F t = some (v, r)) :
    ∃ w, t = w ++ r ∧ JTextOf B F w v := by
  unfold scanNumber at h
  split at h
  · obtain ⟨w, rfl, hw⟩ := scanUnsigned_sound (Or.inr rfl) h
    exact ⟨'-' :: w, rfl, hw⟩
  · obtain ⟨w, rfl, hw⟩ := scanUnsigned_sound (Or.inl rfl) h
    exact ⟨w, rfl, hw⟩

theorem scanNumber_plus {F : Floats} {t : Name} (h : ∀ r, t ≠ '-' :: r) :
    scanNumber (α := α) F t = scanUnsigned (α := α) F [] t := by
  unfold scanNumber
  split
  · rename_i r; exact absurd rfl (h r)
  · rfl

theorem toDigits_minus (k : ℕ) (t : Name) : ∀ r, Nat.toDigits 10 k ++ t ≠ '-' :: r := by
  intro r e
  obtain ⟨c, w, e', hc, _⟩ := toDigits_cons k
  rw [e', List.cons_append, List.cons.injEq] at e
  rw [e.1] at hc
  exact absurd hc (by decide)

theorem scanNumber_int {F : Floats} {w r : Name} {n : ℤ} (h : IntLit w n) (hr : Stops r) :
    scanNumber (α := α) F (w ++ r) = some (.num n, r) := by
  obtain ⟨h1, h2, h3⟩ := stops_facts hr
  obtain ⟨k, ⟨rfl, rfl⟩ | ⟨rfl, rfl⟩⟩ := h
  · rw [scanNumber_plus (toDigits_minus k r)]
    unfold scanUnsigned
    rw [scanInt_complete k h1]
    simp only [scanFrac_nil h2, scanExp_nil h3]
    simp [digitsVal_toDigits]
  · rw [List.cons_append]
    unfold scanNumber
    simp only
    unfold scanUnsigned
    rw [scanInt_complete k h1]
    simp only [scanFrac_nil h2, scanExp_nil h3]
    simp [digitsVal_toDigits]

theorem scanUnsigned_float {F : Floats} {sign frac exp r : Name} (k : ℕ) (hf : Frac frac) (hx : Exp exp)
    (hne : frac ≠ [] ∨ exp ≠ []) (hr : Stops r) :
    scanUnsigned (α := α) F sign (Nat.toDigits 10 k ++ (frac ++ (exp ++ r))) =
      some (.float (F.read (sign ++ Nat.toDigits 10 k ++ frac ++ exp)), r) := by
  obtain ⟨h1, h2, h3⟩ := stops_facts hr
  have hexp : scanExp (exp ++ r) = (exp, r) ∧ NoDigit (exp ++ r) ∧ ∀ r', exp ++ r ≠ '.' :: r' := by
    rcases hx with rfl | ⟨e, s, ds, rfl, he, hs, hd⟩
    · exact ⟨scanExp_nil h3, h1, h2⟩
    · refine ⟨scanExp_complete he hs hd h1, ?_, ?_⟩
      · intro c r' e'
        rw [List.cons_append, List.cons_append, List.cons.injEq] at e'
        rw [← e'.1]
        rcases he with rfl | rfl <;> decide
      · intro r' e'
        rw [List.cons_append, List.cons_append, List.cons.injEq] at e'
        rcases he with rfl | rfl <;> exact absurd e'.1 (by decide)
  have hfrac : scanFrac (frac ++ (exp ++ r)) = (frac, exp ++ r) ∧ NoDigit (frac ++ (exp ++ r)) := by
    rcases hf with rfl | ⟨ds, rfl, hd⟩
    · exact ⟨scanFrac_nil hexp.2.2, hexp.2.1⟩
    · refine ⟨scanFrac_complete hd hexp.2.1, ?_⟩
      intro c r' e'
      rw [List.cons_append, List.cons.injEq] at e'
      rw [← e'.1]
      decide
  unfold scanUnsigned
  rw [scanInt_complete k hfrac.2]
  simp only [hfrac.1, hexp.1]
  rw [if_neg]
  rintro ⟨rfl, rfl⟩
  simp at hne

theorem scanNumber_float {F : Floats} {w r : Name} (h : FloatLit w) (hr : Stops r) :
    scanNumber (α := α) F (w ++ r) = some (.float (F.read w), r) := by
  obtain ⟨sign, k, frac, exp, rfl, hs, hf, hx, hne⟩ := h
  have := fun sign => scanUnsigned_float (α := α) (F := F) (sign := sign) k hf hx hne hr
  rcases hs with rfl | rfl
  · rw [← this, ← scanNumber_plus (toDigits_minus k _)]
    simp only [List.append_assoc, List.nil_append]
  · rw [← this]
    simp only [List.append_assoc, List.cons_append, List.nil_append]
    rfl

/-! ## Words -/

theorem scanWord_sound [DecidableEq α] {B : Name → List α → Prop} {F : Floats}
    {t r : Name} {v : JV α} (h : scanWord (α := α) t = some (v, r)) :
    ∃ w, t = w ++ r ∧ JTextOf B F w v := by
  unfold scanWord at h
  obtain ⟨⟨w, v'⟩, hm, h⟩ := List.exists_of_findSome?_eq_some h
  simp only at h
  split_ifs at h with hp
  cases h
  rw [List.isPrefixOf_iff_prefix] at hp
  obtain ⟨r, rfl⟩ := hp
  refine ⟨w, by rw [List.drop_left], ?_⟩
  simp only [jsonWords, List.mem_cons, Prod.mk.injEq, List.not_mem_nil, or_false] at hm
  rcases hm with ⟨rfl, rfl⟩ | ⟨rfl, rfl⟩ | ⟨rfl, rfl⟩ | ⟨rfl, rfl⟩ | ⟨rfl, rfl⟩ | ⟨rfl, rfl⟩
  · exact .null
  · exact .true
  · exact .false
  · exact .word (Or.inl rfl)
  · exact .word (Or.inr (Or.inl rfl))
  · exact .word (Or.inr (Or.inr rfl))

theorem scanWord_null (r : Name) : scanWord (α := α) (['n', 'u', 'l', 'l'] ++ r) = some (.null, r) := rfl
theorem scanWord_true (r : Name) : scanWord (α := α) (['t', 'r', 'u', 'e'] ++ r) = some (.bool true, r) := rfl
theorem scanWord_false (r : Name) : scanWord (α := α) (['f', 'a', 'l', 's', 'e'] ++ r) = some (.bool false, r) := rfl
theorem scanWord_float {w : Name} (h : FloatWord w) (r : Name) : scanWord (α := α) (w ++ r) = some (.float w, r) := by
  rcases h with rfl | rfl | rfl <;> rfl

/-- The head of a word. -/
theorem scanWord_none {c : Char} {r : Name} (h : c ∉ ['n', 't', 'f', 'N', 'I', '-']) : scanWord (α := α) (c :: r) = none := by
  simp only [List.mem_cons, List.not_mem_nil, or_false, not_or] at h
  obtain ⟨h1, h2, h3, h4, h5, h6⟩ := h
  unfold scanWord jsonWords
  have : ∀ a w, a ≠ c → List.isPrefixOf (a :: w) (c :: r) = false := by
    intro a w hn
    simp [List.isPrefixOf, hn]
  simp only [List.findSome?_cons, this _ _ (Ne.symm h1), this _ _ (Ne.symm h2), this _ _ (Ne.symm h3), this _ _ (Ne.symm h4),
    this _ _ (Ne.symm h5), this _ _ (Ne.symm h6)]
  rfl

theorem scanWord_minus {c : Char} {r : Name} (h : c ≠ 'I') : scanWord (α := α) ('-' :: c :: r) = none := by
  unfold scanWord jsonWords
  have : ∀ a w, a ≠ '-' → List.isPrefixOf (a :: w) ('-' :: c :: r) = false := by
    intro a w hn
    simp [List.isPrefixOf, hn]
  have h' : List.isPrefixOf ['-', 'I', 'n', 'f', 'i', 'n', 'i', 't', 'y'] ('-' :: c :: r) = false := by
    simp [List.isPrefixOf, h.symm]
  simp only [List.findSome?_cons, this _ _ (show 'n' ≠ '-' by decide), this _ _ (show 't' ≠ '-' by decide),
    this _ _ (show 'f' ≠ '-' by decide), this _ _ (show 'N' ≠ '-' by decide), this _ _ (show 'I' ≠ '-' by decide), h']
  rfl

theorem digit_not_word {c : Char} (h : c.isDigit = true) : c ∉ ['n', 't', 'f', 'N', 'I', '-'] := by
  simp only [List.mem_cons, List.not_mem_nil, or_false, not_or]
  refine ⟨?_, ?_, ?_, ?_, ?_, ?_⟩ <;> (rintro rfl; exact absurd h (by decide))

theorem scanWord_number (k : ℕ) (r : Name) : scanWord (α := α) (Nat.toDigits 10 k ++ r) = none ∧
    scanWord (α := α) ('-' :: Nat.toDigits 10 k ++ r) = none := by
  obtain ⟨c, w, e, hc, _⟩ := toDigits_cons k
  have := digit_not_word hc
  rw [e]
  refine ⟨scanWord_none this, ?_⟩
  rw [List.cons_append, List.cons_append]
  apply scanWord_minus
  rintro rfl
  exact absurd hc (by decide)

end SegEval
