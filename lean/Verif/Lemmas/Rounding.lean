import Mathlib.Tactic.Linarith
import Mathlib.Tactic.Ring
import Mathlib.Tactic.FieldSimp
import Mathlib.Tactic.Positivity
import Mathlib.Tactic.NormNum
import Verif.Spec.Rounding
import Verif.Model.Rounding

/-!
# Rounding to significant digits is faithful and accurate
-/

namespace SegEval

open Spec

theorem roundHalfEven_near (q : ℚ) : |(roundHalfEven q : ℚ) - q| ≤ 1 / 2 := by
  have h1 : ((q.floor : ℤ) : ℚ) ≤ q := Int.floor_le q
  have h2 : q < (q.floor : ℤ) + 1 := Int.lt_floor_add_one q
  simp only [roundHalfEven]
  split_ifs with ha hb hc <;> rw [abs_le] <;> push_cast <;> constructor <;> linarith

theorem roundHalfEven_int (n : ℤ) : roundHalfEven n = n := by
  have h : (n : ℚ).floor = n := by
    have h' : ⌊(n : ℚ)⌋ = n := Int.floor_intCast n
    exact h'
  simp only [roundHalfEven, h]
  rw [if_pos (by norm_num)]

theorem roundHalfEven_mono {x y : ℚ} (h : x ≤ y) : roundHalfEven x ≤ roundHalfEven y := by
  have hx1 : ((x.floor : ℤ) : ℚ) ≤ x := Int.floor_le x
  have hx2 : x < (x.floor : ℤ) + 1 := Int.lt_floor_add_one x
  have hy1 : ((y.floor : ℤ) : ℚ) ≤ y := Int.floor_le y
  have hy2 : y < (y.floor : ℤ) + 1 := Int.lt_floor_add_one y
  have hf : x.floor ≤ y.floor := Int.floor_mono h
  rcases hf.lt_or_eq with hlt | heq
  · have : x.floor + 1 ≤ y.floor := hlt
    simp only [roundHalfEven]
    split_ifs <;> omega
  · simp only [roundHalfEven, heq]
    rw [heq] at hx1 hx2
    split_ifs <;> first | omega | (exfalso; linarith)

theorem roundHalfEven_neg (q : ℚ) : roundHalfEven (-q) = -roundHalfEven q := by
  have hx1 : ((q.floor : ℤ) : ℚ) ≤ q := Int.floor_le q
  have hx2 : q < (q.floor : ℤ) + 1 := Int.lt_floor_add_one q
  by_cases hi : q = (q.floor : ℤ)
  · rw [hi, ← Int.cast_neg, roundHalfEven_int, roundHalfEven_int]
  · have hlt : ((q.floor : ℤ) : ℚ) < q := lt_of_le_of_ne hx1 (Ne.symm hi)
    have hf : (-q).floor = -q.floor - 1 := by
      have h' : ⌊-q⌋ = -q.floor - 1 := by
        apply Int.floor_eq_iff.2
        push_cast
        constructor <;> linarith
      exact h'
    simp only [roundHalfEven, hf]
    push_cast
    split_ifs <;> first | omega | (exfalso; linarith)

variable {b p : ℕ}

/-- The unit in the last place. -/
def ulp (b p : ℕ) (q : ℚ) : ℚ := (b : ℚ) ^ (Int.log b |q| + 1 - (p : ℤ))

theorem roundSig_eq (q : ℚ) (hq : q ≠ 0) :
    roundSig b p q = (roundHalfEven (q / ulp b p q) : ℚ) * ulp b p q := by
  simp only [roundSig, hq, if_false, ulp]

theorem roundSig_zero : roundSig b p 0 = 0 := by simp [roundSig]

theorem ulp_pos (hb : 1 < b) (q : ℚ) : 0 < ulp b p q := by
  have : (0 : ℚ) < b := by exact_mod_cast (by omega : 0 < b)
  exact zpow_pos this _

theorem ulp_neg (q : ℚ) : ulp b p (-q) = ulp b p q := by simp [ulp]

theorem roundSig_neg (q : ℚ) : roundSig b p (-q) = -roundSig b p q := by
  by_cases hq : q = 0
  · subst hq; simp [roundSig]
  · rw [roundSig_eq _ hq, roundSig_eq _ (neg_ne_zero.2 hq), ulp_neg, neg_div, roundHalfEven_neg]
    push_cast
    ring

theorem roundSig_near (hb : 1 < b) (q : ℚ) (hq : q ≠ 0) :
    |roundSig b p q - q| ≤ ulp b p q / 2 := by
  have hu := ulp_pos (p := p) hb q
  rw [roundSig_eq _ hq]
  have h := roundHalfEven_near (q / ulp b p q)
  have e : (roundHalfEven (q / ulp b p q) : ℚ) * ulp b p q - q =
      ((roundHalfEven (q / ulp b p q) : ℚ) - q / ulp b p q) * ulp b p q := by
    field_simp
  rw [e, abs_mul, abs_of_pos hu]
  nlinarith

theorem ulp_le (hb : 1 < b) (q : ℚ) (hq : q ≠ 0) :
    ulp b p q ≤ (b : ℚ) ^ (1 - (p : ℤ)) * |q| := by
  have hb0 : (b : ℚ) ≠ 0 := by exact_mod_cast (by omega : b ≠ 0)
  have h : (b : ℚ) ^ Int.log b |q| ≤ |q| := Int.zpow_log_le_self hb (abs_pos.2 hq)
  have hpos : (0 : ℚ) < (b : ℚ) ^ (1 - (p : ℤ)) :=
    zpow_pos (by exact_mod_cast (by omega : 0 < b)) _
  have e : ulp b p q = (b : ℚ) ^ (1 - (p : ℤ)) * (b : ℚ) ^ Int.log b |q| := by
    rw [ulp, ← zpow_add₀ hb0]; congr 1; ring
  rw [e]
  exact mul_le_mul_of_nonneg_left h hpos.le

theorem roundSig_accurate (hb : 1 < b) :
    Accurate (roundSig b p) ((b : ℚ) ^ (1 - (p : ℤ)) / 2) := by
  intro q
  by_cases hq : q = 0
  · subst hq; simp [roundSig]
  · have h1 := roundSig_near (p := p) hb q hq
    have h2 := ulp_le (p := p) hb q hq
    linarith

/-- Numbers of at most `p` digits. -/
def Digits (b p : ℕ) (q : ℚ) : Prop :=
  ∃ m e : ℤ, |m| ≤ (b : ℤ) ^ p ∧ q = (m : ℚ) * (b : ℚ) ^ e

theorem int_of_scaled (m k : ℤ) (hk : 0 ≤ k) :
    ∃ z : ℤ, (m : ℚ) * (b : ℚ) ^ k = z := by
  obtain ⟨n, rfl⟩ := Int.eq_ofNat_of_zero_le hk
  exact ⟨m * (b : ℤ) ^ n, by push_cast; simp⟩

/-- Numbers of at most `p` digits are kept. -/
theorem roundSig_fixed (hb : 1 < b) (hp : 0 < p) {q : ℚ} (h : Digits b p q) :
    roundSig b p q = q := by
  obtain ⟨m, k, hm, hq⟩ := h
  have hbpos : (0 : ℚ) < b := by exact_mod_cast (by omega : 0 < b)
  have hb0 : (b : ℚ) ≠ 0 := hbpos.ne'
  by_cases hq0 : q = 0
  · subst hq0; exact roundSig_zero
  have hu := ulp_pos (p := p) hb q
  have key : ∃ z : ℤ, q / ulp b p q = z := by
    have hmne : m ≠ 0 := by rintro rfl; exact hq0 (by rw [hq]; simp)
    have habs : |q| = (|m| : ℤ) * (b : ℚ) ^ k := by
      rw [hq, abs_mul, abs_of_pos (zpow_pos hbpos k)]; push_cast; rfl
    have hdiv : q / ulp b p q = (m : ℚ) * (b : ℚ) ^ (k - (Int.log b |q| + 1 - (p : ℤ))) := by
      rw [ulp, hq, zpow_sub₀ hb0 k]; field_simp
    rcases hm.lt_or_eq with hlt | heq
    · have h1 : |q| < (b : ℚ) ^ ((p : ℤ) + k) := by
        rw [habs, zpow_add₀ hb0]
        apply mul_lt_mul_of_pos_right _ (zpow_pos hbpos k)
        have : ((|m| : ℤ) : ℚ) < ((b : ℤ) ^ p : ℤ) := by exact_mod_cast hlt
        simpa using this
      have h2 : Int.log b |q| < (p : ℤ) + k :=
        (Int.lt_zpow_iff_log_lt hb (abs_pos.2 hq0)).1 h1
      rw [hdiv]
      exact int_of_scaled _ _ (by omega)
    · have h1 : |q| = (b : ℚ) ^ ((p : ℤ) + k) := by
        rw [habs, zpow_add₀ hb0, heq]; push_cast; simp
      have h2 : Int.log b |q| = (p : ℤ) + k := by rw [h1, Int.log_zpow hb]
      have h3 : m = (b : ℤ) ^ p ∨ m = -(b : ℤ) ^ p := by
        rcases abs_choice m with h | h <;> omega
      have hz : (b : ℚ) ^ p * (b : ℚ) ^ (k - (Int.log b |q| + 1 - (p : ℤ))) =
          (b : ℚ) ^ ((p : ℤ) - 1) := by
        rw [h2, ← zpow_natCast, ← zpow_add₀ hb0]; congr 1; ring
      obtain ⟨z, hz'⟩ := int_of_scaled 1 ((p : ℤ) - 1) (by omega)
      rw [Int.cast_one, one_mul] at hz'
      rcases h3 with h3 | h3
      · exact ⟨z, by rw [hdiv, h3]; push_cast; rw [hz, hz']⟩
      · exact ⟨-z, by rw [hdiv, h3]; push_cast; rw [neg_mul, hz, hz']⟩
  obtain ⟨z, hz⟩ := key
  rw [roundSig_eq _ hq0, hz, roundHalfEven_int, ← hz]
  field_simp

/-- The scaled value has at most `p` digits. -/
theorem mantissa_bounds (hb : 1 < b) (q : ℚ) (hq : 0 < q) :
    (b : ℚ) ^ ((p : ℤ) - 1) ≤ q / ulp b p q ∧ q / ulp b p q < (b : ℚ) ^ (p : ℤ) := by
  have hbpos : (0 : ℚ) < b := by exact_mod_cast (by omega : 0 < b)
  have hb0 : (b : ℚ) ≠ 0 := hbpos.ne'
  have hu := ulp_pos (p := p) hb q
  have h1 : (b : ℚ) ^ Int.log b |q| ≤ |q| := Int.zpow_log_le_self hb (abs_pos.2 hq.ne')
  have h2 : |q| < (b : ℚ) ^ (Int.log b |q| + 1) := Int.lt_zpow_succ_log_self hb _
  rw [abs_of_pos hq] at h1 h2
  constructor
  · rw [le_div_iff₀ hu, ulp, ← zpow_add₀ hb0, abs_of_pos hq]
    have : (p : ℤ) - 1 + (Int.log b q + 1 - (p : ℤ)) = Int.log b q := by ring
    rw [this]; exact h1
  · rw [div_lt_iff₀ hu, ulp, ← zpow_add₀ hb0, abs_of_pos hq]
    have : (p : ℤ) + (Int.log b q + 1 - (p : ℤ)) = Int.log b q + 1 := by ring
    rw [this]; exact h2

/-- A rounded positive number stays within its power of the base. -/
theorem roundSig_decade (hb : 1 < b) (hp : 0 < p) (q : ℚ) (hq : 0 < q) :
    (b : ℚ) ^ Int.log b q ≤ roundSig b p q ∧ roundSig b p q ≤ (b : ℚ) ^ (Int.log b q + 1) := by
  have hbpos : (0 : ℚ) < b := by exact_mod_cast (by omega : 0 < b)
  have hb0 : (b : ℚ) ≠ 0 := hbpos.ne'
  have hu := ulp_pos (p := p) hb q
  obtain ⟨h1, h2⟩ := mantissa_bounds (p := p) hb q hq
  obtain ⟨lo, hlo⟩ := int_of_scaled 1 ((p : ℤ) - 1) (by omega)
  obtain ⟨hi, hhi⟩ := int_of_scaled 1 (p : ℤ) (by omega)
  rw [Int.cast_one, one_mul] at hlo hhi
  rw [hlo] at h1
  rw [hhi] at h2
  have g1 := roundHalfEven_mono h1
  have g2 := roundHalfEven_mono h2.le
  rw [roundHalfEven_int] at g1 g2
  rw [roundSig_eq _ hq.ne']
  have g1' : (lo : ℚ) ≤ (roundHalfEven (q / ulp b p q) : ℚ) := by exact_mod_cast g1
  have g2' : (roundHalfEven (q / ulp b p q) : ℚ) ≤ (hi : ℚ) := by exact_mod_cast g2
  constructor
  · refine le_trans (le_of_eq ?_) (mul_le_mul_of_nonneg_right g1' hu.le)
    rw [← hlo, ulp, ← zpow_add₀ hb0, abs_of_pos hq]; congr 1; ring
  · refine le_trans (mul_le_mul_of_nonneg_right g2' hu.le) (le_of_eq ?_)
    rw [← hhi, ulp, ← zpow_add₀ hb0, abs_of_pos hq]; congr 1; ring

theorem roundSig_digits (hb : 1 < b) (q : ℚ) : Digits b p (roundSig b p q) := by
  have pos : ∀ q : ℚ, 0 < q → Digits b p (roundSig b p q) := by
    intro q hq
    have hbpos : (0 : ℚ) < b := by exact_mod_cast (by omega : 0 < b)
    obtain ⟨h1, h2⟩ := mantissa_bounds (p := p) hb q hq
    have h0 : (0 : ℚ) ≤ q / ulp b p q := le_trans (zpow_pos hbpos _).le h1
    have e : (b : ℚ) ^ (p : ℤ) = (((b : ℤ) ^ p : ℤ) : ℚ) := by push_cast; simp
    rw [e] at h2
    have g2 := roundHalfEven_mono h2.le
    have g1 := roundHalfEven_mono h0
    rw [roundHalfEven_int] at g2
    have z : roundHalfEven 0 = 0 := by exact_mod_cast roundHalfEven_int 0
    rw [z] at g1
    exact ⟨_, _, by rw [abs_of_nonneg g1]; exact g2, roundSig_eq q hq.ne'⟩
  rcases lt_trichotomy q 0 with h | h | h
  · obtain ⟨m, e, h1, h2⟩ := pos (-q) (by linarith)
    rw [roundSig_neg] at h2
    exact ⟨-m, e, by rwa [abs_neg], by push_cast; rw [neg_mul, ← h2, neg_neg]⟩
  · subst h; exact ⟨0, 0, by simp, by simp [roundSig_zero]⟩
  · exact pos q h

theorem roundSig_nonneg (hb : 1 < b) (hp : 0 < p) {q : ℚ} (hq : 0 ≤ q) : 0 ≤ roundSig b p q := by
  rcases hq.lt_or_eq with h | h
  · have hbpos : (0 : ℚ) < b := by exact_mod_cast (by omega : 0 < b)
    exact le_trans (zpow_pos hbpos _).le (roundSig_decade hb hp q h).1
  · rw [← h, roundSig_zero]

theorem roundSig_mono_pos (hb : 1 < b) (hp : 0 < p) {x y : ℚ} (hx : 0 < x) (h : x ≤ y) :
    roundSig b p x ≤ roundSig b p y := by
  have hy : 0 < y := lt_of_lt_of_le hx h
  have hbq : (1 : ℚ) ≤ b := by exact_mod_cast hb.le
  rcases (Int.log_mono_right (b := b) hx h).lt_or_eq with hlt | heq
  · calc roundSig b p x ≤ (b : ℚ) ^ (Int.log b x + 1) := (roundSig_decade hb hp x hx).2
      _ ≤ (b : ℚ) ^ Int.log b y := zpow_le_zpow_right₀ hbq (by omega)
      _ ≤ roundSig b p y := (roundSig_decade hb hp y hy).1
  · have hu : ulp b p x = ulp b p y := by
      rw [ulp, ulp, abs_of_pos hx, abs_of_pos hy, heq]
    have hpos := ulp_pos (p := p) hb y
    rw [roundSig_eq _ hx.ne', roundSig_eq _ hy.ne', hu]
    apply mul_le_mul_of_nonneg_right _ hpos.le
    exact_mod_cast roundHalfEven_mono (div_le_div_of_nonneg_right h hpos.le)

theorem roundSig_mono (hb : 1 < b) (hp : 0 < p) : Monotone (roundSig b p) := by
  intro x y h
  rcases lt_or_ge 0 x with hx | hx
  · exact roundSig_mono_pos hb hp hx h
  · rcases lt_or_ge y 0 with hy | hy
    · have := roundSig_mono_pos (p := p) hb hp (x := -y) (y := -x) (by linarith) (by linarith)
      rw [roundSig_neg, roundSig_neg] at this
      linarith
    · have h1 := roundSig_nonneg (p := p) hb hp hy
      have h2 := roundSig_nonneg (p := p) hb hp (q := -x) (by linarith)
      rw [roundSig_neg] at h2
      linarith

theorem roundSig_faithful (hb : 1 < b) (hp : 0 < p) : Faithful (roundSig b p) (b ^ p) where
  mono := roundSig_mono hb hp
  idem q := roundSig_fixed hb hp (roundSig_digits hb q)
  int n hn := roundSig_fixed hb hp ⟨n, 0, by exact_mod_cast hn, by simp⟩

theorem Digits.mono {p' : ℕ} (hb : 1 < b) (h : p ≤ p') {q : ℚ} (hd : Digits b p q) :
    Digits b p' q := by
  obtain ⟨m, e, h1, h2⟩ := hd
  exact ⟨m, e, le_trans h1 (pow_le_pow_right₀ (by exact_mod_cast hb.le) h), h2⟩

/-- Rounding twice, first to more digits. -/
theorem roundSig_twice_faithful (hb : 1 < b) (hp : 0 < p) {p' : ℕ} (h : p ≤ p') :
    Faithful (fun q => roundSig b p (roundSig b p' q)) (b ^ p) where
  mono := (roundSig_mono hb hp).comp (roundSig_mono hb (by omega))
  idem q := by
    show roundSig b p (roundSig b p' (roundSig b p _)) = _
    rw [roundSig_fixed hb (by omega : 0 < p') ((roundSig_digits hb _).mono hb h)]
    exact roundSig_fixed hb hp (roundSig_digits hb _)
  int n hn := by
    have d : Digits b p n := ⟨n, 0, by exact_mod_cast hn, by simp⟩
    show roundSig b p (roundSig b p' n) = n
    rw [roundSig_fixed hb (by omega : 0 < p') (d.mono hb h), roundSig_fixed hb hp d]

end SegEval
