import Verif.Lemmas.Rounded
import Verif.Lemmas.Summary

/-!
# Means and variances with rounded arithmetic
-/

namespace SegEval

open Spec

variable {r : ℚ → ℚ} {limit : ℕ}

/-- The sum as a loop of rounded additions. -/
def roundedSum (r : ℚ → ℚ) (s : ℚ) (l : List ℚ) : ℚ := l.foldl (fun s v => r (s + v)) s

theorem forLoop_addR_dec (ρ : Rounding) (l : List PyNum) (s : ℚ) (hl : ∀ x ∈ l, x.NoFlt) :
    forLoop l (.dec s) (PyNum.addR ρ) = .ok (.dec (roundedSum ρ.dec s (l.map PyNum.val))) := by
  induction l generalizing s with
  | nil => rfl
  | cons x xs ih =>
    have : PyNum.addR ρ (.dec s) x = .ok (.dec (ρ.dec (s + x.val))) := by
      cases x with
      | flt q => exact absurd (hl (.flt q) (by simp)) id
      | int n => rfl
      | dec q => rfl
    rw [forLoop, this]
    simp only
    rw [ih _ (fun x hx => hl x (by simp [hx]))]
    rfl

/-- The mean with rounded operations. -/
def roundedMean (r : ℚ → ℚ) (l : List ℚ) : ℚ := r (roundedSum r 0 l / l.length)

theorem pyMeanR_dec (ρ : Rounding) (l : List PyNum) (hl : ∀ x ∈ l, x.NoFlt) (hne : l ≠ []) :
    pyMeanR ρ l = .ok (.dec (roundedMean ρ.dec (l.map PyNum.val))) := by
  have hpos : 0 < l.length := List.length_pos_iff.2 hne
  unfold pyMeanR
  rw [forLoop_addR_dec ρ l 0 hl]
  simp only
  rw [if_pos hpos, truedivR_dec_int ρ _ (by exact_mod_cast hpos.ne')]
  simp [roundedMean]

/-- The variance with rounded operations. -/
def roundedVar (ρ : Rounding) (l : List ℚ) : ℚ :=
  roundedMean ρ.dec (l.map fun x =>
    ρ.sq (ρ.dec (x - roundedMean ρ.dec l) * ρ.dec (x - roundedMean ρ.dec l)))

theorem forLoop_squareR (ρ : Rounding) (mu : ℚ) (l : List PyNum) (t : ℚ) (hl : ∀ x ∈ l, x.NoFlt) :
    forLoop l (.dec t) (squareStepR ρ (.dec mu)) =
      .ok (.dec (roundedSum ρ.dec t (l.map fun x =>
        ρ.sq (ρ.dec (x.val - mu) * ρ.dec (x.val - mu))))) := by
  induction l generalizing t with
  | nil => rfl
  | cons x xs ih =>
    have : squareStepR ρ (.dec mu) (.dec t) x =
        .ok (.dec (ρ.dec (t + ρ.sq (ρ.dec (x.val - mu) * ρ.dec (x.val - mu))))) := by
      cases x with
      | flt q => exact absurd (hl (.flt q) (by simp)) id
      | int n => rfl
      | dec q => rfl
    rw [forLoop, this]
    simp only
    rw [ih _ (fun x hx => hl x (by simp [hx]))]
    rfl

theorem pyVarR_dec (ρ : Rounding) (l : List PyNum) (hl : ∀ x ∈ l, x.NoFlt) (hne : l ≠ []) :
    pyVarR ρ l = .ok (.dec (roundedVar ρ (l.map PyNum.val))) := by
  have hpos : 0 < l.length := List.length_pos_iff.2 hne
  unfold pyVarR
  rw [pyMeanR_dec ρ l hl hne]
  simp only
  rw [forLoop_squareR ρ _ l 0 hl]
  simp only
  rw [truedivR_dec_int ρ _ (by exact_mod_cast hpos.ne')]
  simp [roundedVar, roundedMean, Function.comp_def]

/-- Integer bounds of the values bound every partial sum. -/
theorem roundedSum_bounds (hr : Faithful r limit) (l : List ℚ) (lo hi : ℤ)
    (hl : ∀ x ∈ l, (lo : ℚ) ≤ x ∧ x ≤ hi) (k : ℕ) (s : ℚ)
    (hs : (k * lo : ℚ) ≤ s ∧ s ≤ k * hi)
    (hlo : ((k + l.length : ℕ) : ℤ) * |lo| ≤ limit) (hhi : ((k + l.length : ℕ) : ℤ) * |hi| ≤ limit) :
    (((k + l.length : ℕ) : ℚ) * lo) ≤ roundedSum r s l ∧
      roundedSum r s l ≤ ((k + l.length : ℕ) : ℚ) * hi := by
  induction l generalizing k s with
  | nil => simpa [roundedSum] using hs
  | cons x xs ih =>
    have hx := hl x (by simp)
    have hk : ∀ z : ℤ, ((k + (x :: xs).length : ℕ) : ℤ) * |z| ≤ limit →
        r (((k + 1 : ℕ) * z : ℤ) : ℚ) = (((k + 1 : ℕ) * z : ℤ) : ℚ) := by
      intro z hz
      apply hr.int
      rw [abs_mul, Nat.abs_cast]
      refine le_trans (mul_le_mul_of_nonneg_right ?_ (abs_nonneg z)) hz
      push_cast [List.length_cons]
      have : (0 : ℤ) ≤ xs.length := by positivity
      linarith
    have h1 := hk lo hlo
    have h2 := hk hi hhi
    have := ih (fun x hx => hl x (by simp [hx])) (k + 1) (r (s + x)) ?_ ?_ ?_
    · simp only [roundedSum, List.foldl_cons, List.length_cons] at this ⊢
      rw [show k + (xs.length + 1) = k + 1 + xs.length by ring]
      exact this
    · constructor
      · have h := hr.mono (show (((k + 1 : ℕ) * lo : ℤ) : ℚ) ≤ s + x by
          push_cast; linarith [hs.1, hx.1])
        rw [h1] at h
        refine le_trans (le_of_eq ?_) h
        push_cast; ring
      · have h := hr.mono (show s + x ≤ (((k + 1 : ℕ) * hi : ℤ) : ℚ) by
          push_cast; linarith [hs.2, hx.2])
        rw [h2] at h
        refine le_trans h (le_of_eq ?_)
        push_cast; ring
    · rw [show k + 1 + xs.length = k + (x :: xs).length by simp; ring]; exact hlo
    · rw [show k + 1 + xs.length = k + (x :: xs).length by simp; ring]; exact hhi

theorem roundedMean_bounds (hr : Faithful r limit) (l : List ℚ) (hne : l ≠ []) (lo hi : ℤ)
    (hl : ∀ x ∈ l, (lo : ℚ) ≤ x ∧ x ≤ hi) (hlo : (l.length : ℤ) * |lo| ≤ limit)
    (hhi : (l.length : ℤ) * |hi| ≤ limit) :
    (lo : ℚ) ≤ roundedMean r l ∧ roundedMean r l ≤ hi := by
  have hpos : 0 < l.length := List.length_pos_iff.2 hne
  have hq : (0 : ℚ) < l.length := by exact_mod_cast hpos
  have h := roundedSum_bounds hr l lo hi hl 0 0 (by simp) (by simpa using hlo) (by simpa using hhi)
  simp only [zero_add] at h
  have hint : ∀ z : ℤ, (l.length : ℤ) * |z| ≤ limit → r z = z := by
    intro z hz
    apply hr.int
    refine le_trans ?_ hz
    have : (1 : ℤ) ≤ l.length := by exact_mod_cast hpos
    nlinarith [abs_nonneg z]
  unfold roundedMean
  constructor
  · rw [← hint lo hlo]
    exact hr.mono (by rw [le_div_iff₀ hq]; linarith [h.1])
  · rw [← hint hi hhi]
    exact hr.mono (by rw [div_le_iff₀ hq]; linarith [h.2])

/-- The rounding errors of a sum, relative to the sum of the absolute values. -/
theorem roundedSum_accurate {eps : ℚ} (ha : Accurate r eps) (he : 0 ≤ eps) (l : List ℚ) (k : ℕ)
    (s s' A : ℚ) (hA : |s| ≤ A) (hs : |s' - s| ≤ ((1 + eps) ^ k - 1) * A) :
    |roundedSum r s' l - (s + l.sum)| ≤
      ((1 + eps) ^ (k + l.length) - 1) * (A + (l.map abs).sum) := by
  induction l generalizing k s s' A with
  | nil => simpa [roundedSum] using hs
  | cons x xs ih =>
    have hone : (1 : ℚ) ≤ (1 + eps) ^ k := one_le_pow₀ (by linarith)
    have hb : |s + x| ≤ A + |x| := le_trans (abs_add_le _ _) (by linarith)
    have hstep : |(s' + x) - (s + x)| ≤ ((1 + eps) ^ k - 1) * (A + |x|) := by
      rw [show s' + x - (s + x) = s' - s by ring]
      refine le_trans hs (mul_le_mul_of_nonneg_left ?_ (by linarith))
      linarith [abs_nonneg x]
    have h := accurate_step ha he hb hstep
    have := ih (k + 1) (s + x) (r (s' + x)) (A + |x|) hb (by
      refine le_trans h (le_of_eq ?_)
      rw [pow_succ]; ring)
    simp only [roundedSum, List.foldl_cons, List.sum_cons, List.length_cons, List.map_cons] at this ⊢
    rw [show k + (xs.length + 1) = k + 1 + xs.length by ring, ← add_assoc, ← add_assoc]
    exact this

theorem roundedMean_accurate {eps : ℚ} (ha : Accurate r eps) (he : 0 ≤ eps) (l : List ℚ)
    (hne : l ≠ []) :
    |roundedMean r l - meanOf l| ≤ ((1 + eps) ^ (l.length + 1) - 1) * meanOf (l.map abs) := by
  have hpos : 0 < l.length := List.length_pos_iff.2 hne
  have hq : (0 : ℚ) < l.length := by exact_mod_cast hpos
  have h := roundedSum_accurate ha he l 0 0 0 0 (by simp) (by simp)
  simp only [zero_add] at h
  have hsum : |l.sum| ≤ (l.map abs).sum := by
    clear h ha hne hpos hq
    induction l with
    | nil => simp
    | cons x xs ih =>
      simp only [List.sum_cons, List.map_cons]
      exact le_trans (abs_add_le _ _) (by linarith)
  have hM : |meanOf l| ≤ meanOf (l.map abs) := by
    unfold meanOf
    rw [abs_div, Nat.abs_cast, List.length_map]
    exact div_le_div_of_nonneg_right hsum hq.le
  have hd : |roundedSum r 0 l / l.length - meanOf l| ≤
      ((1 + eps) ^ l.length - 1) * meanOf (l.map abs) := by
    unfold meanOf
    rw [← sub_div, abs_div, Nat.abs_cast, List.length_map, ← mul_div_assoc]
    exact div_le_div_of_nonneg_right h hq.le
  refine le_trans (accurate_step ha he hM hd) (le_of_eq ?_)
  rw [pow_succ]; ring

theorem roundedSum_ints (hr : Faithful r limit) (l : List ℤ) (s : ℤ)
    (h : |s| + (l.map abs).sum ≤ limit) :
    roundedSum r s (l.map fun n : ℤ => (n : ℚ)) = ((s + l.sum : ℤ) : ℚ) := by
  induction l generalizing s with
  | nil => simp [roundedSum]
  | cons x xs ih =>
    have hnn : ∀ xs : List ℤ, 0 ≤ (xs.map abs).sum := by
      intro xs
      apply List.sum_nonneg
      intro y hy
      obtain ⟨z, -, rfl⟩ := List.mem_map.1 hy
      exact abs_nonneg z
    simp only [List.map_cons, List.sum_cons] at h
    have h1 : |s + x| ≤ |s| + |x| := abs_add_le _ _
    have hx : r ((s : ℚ) + x) = ((s + x : ℤ) : ℚ) := by
      have := hr.int (s + x) (by linarith [hnn xs])
      push_cast at this ⊢
      exact this
    simp only [roundedSum, List.map_cons, List.foldl_cons] at ih ⊢
    rw [hx, ih (s + x) (by linarith)]
    push_cast [List.sum_cons]
    ring

/-- Compound rounding errors stay below twice their sum. -/
theorem compound_le {eps : ℚ} (he : 0 ≤ eps) (k : ℕ) (hk : k * eps ≤ 1 / 2) :
    (1 + eps) ^ k - 1 ≤ 2 * k * eps := by
  by_cases hk0 : k = 0
  · subst hk0; simp
  have hk1 : (1 : ℚ) ≤ k := by exact_mod_cast Nat.one_le_iff_ne_zero.2 hk0
  have he2 : eps ≤ 1 / 2 := by nlinarith
  have h1 : 1 + (k : ℚ) * (-eps) ≤ (1 + -eps) ^ k := one_add_mul_le_pow (by linarith) k
  have h2 : (1 + eps) ^ k * (1 + -eps) ^ k ≤ 1 := by
    rw [← mul_pow]
    exact pow_le_one₀ (by nlinarith) (by nlinarith)
  have h3 : (1 + eps) ^ k * (1 - k * eps) ≤ 1 :=
    le_trans (mul_le_mul_of_nonneg_left (by linarith) (by positivity)) h2
  have h4 : (1 : ℚ) ≤ (1 + eps) ^ k := one_le_pow₀ (by linarith)
  have hke : (0 : ℚ) ≤ k * eps := by positivity
  nlinarith [h3, h4, hke]

theorem roundedVar_bounds (ρ : Rounding) (hr : Faithful ρ.dec limit) (hs : Faithful ρ.sq limit)
    (l : List ℚ) (hne : l ≠ []) (hl : ∀ x ∈ l, 0 ≤ x ∧ x ≤ 1) (hn : l.length ≤ limit) :
    0 ≤ roundedVar ρ l ∧ roundedVar ρ l ≤ 1 := by
  have hpos : 0 < l.length := List.length_pos_iff.2 hne
  have h1 : (1 : ℕ) ≤ limit := by omega
  have hone : ∀ z : ℤ, |z| ≤ 1 → (l.length : ℤ) * |z| ≤ limit := by
    intro z hz
    have : (0 : ℤ) ≤ l.length := by positivity
    have h2 : (l.length : ℤ) ≤ limit := by exact_mod_cast hn
    nlinarith
  have hm := roundedMean_bounds hr l hne 0 1 (by simpa using hl) (hone 0 (by simp))
    (hone 1 (by simp))
  have := roundedMean_bounds hr (l.map fun x =>
    ρ.sq (ρ.dec (x - roundedMean ρ.dec l) * ρ.dec (x - roundedMean ρ.dec l))) (by simpa using hne)
    0 1 ?_ (by simp) (by simpa using hn)
  · simpa [roundedVar] using this
  · intro y hy
    obtain ⟨x, hx, rfl⟩ := List.mem_map.1 hy
    have hx' := hl x hx
    have hd1 : ρ.dec (x - roundedMean ρ.dec l) ≤ 1 := by
      have := hr.mono (show x - roundedMean ρ.dec l ≤ 1 by push_cast at hm; linarith [hm.1])
      rwa [hr.one h1] at this
    have hd2 : -1 ≤ ρ.dec (x - roundedMean ρ.dec l) := by
      have h := hr.mono (show ((-1 : ℤ) : ℚ) ≤ x - roundedMean ρ.dec l by
        push_cast at hm ⊢; linarith [hm.2])
      rw [hr.int (-1) (by simpa using h1)] at h
      simpa using h
    constructor
    · have := hs.nonneg (mul_self_nonneg (ρ.dec (x - roundedMean ρ.dec l)))
      simpa using this
    · have := hs.mono (show ρ.dec (x - roundedMean ρ.dec l) * ρ.dec (x - roundedMean ρ.dec l) ≤ 1 by
        nlinarith)
      rw [hs.one h1] at this
      simpa using this

/-- The variance is never negative. -/
theorem roundedVar_nonneg (ρ : Rounding) (hr : Faithful ρ.dec limit) (hs : Faithful ρ.sq limit)
    (l : List ℚ) : 0 ≤ roundedVar ρ l := by
  unfold roundedVar roundedMean
  apply hr.nonneg
  apply div_nonneg _ (by positivity)
  generalize hq : (l.map fun x => ρ.sq (ρ.dec (x - ρ.dec (roundedSum ρ.dec 0 l / l.length)) *
    ρ.dec (x - ρ.dec (roundedSum ρ.dec 0 l / l.length)))) = q
  have hnn : ∀ y ∈ q, 0 ≤ y := by
    intro y hy
    rw [← hq] at hy
    obtain ⟨x, -, rfl⟩ := List.mem_map.1 hy
    exact hs.nonneg (mul_self_nonneg _)
  have : ∀ (q : List ℚ) (s : ℚ), 0 ≤ s → (∀ y ∈ q, 0 ≤ y) → 0 ≤ roundedSum ρ.dec s q := by
    intro q
    induction q with
    | nil => intro s hs _; exact hs
    | cons y ys ih =>
      intro s hs h
      exact ih _ (hr.nonneg (add_nonneg hs (h y (by simp)))) (fun z hz => h z (by simp [hz]))
  exact this q 0 le_rfl hnn

theorem meanOf_close (l : List ℚ) (hne : l ≠ []) (f g : ℚ → ℚ) (δ : ℚ)
    (h : ∀ x ∈ l, |f x - g x| ≤ δ) : |meanOf (l.map f) - meanOf (l.map g)| ≤ δ := by
  have hpos : 0 < l.length := List.length_pos_iff.2 hne
  have hq : (0 : ℚ) < l.length := by exact_mod_cast hpos
  have hs : |(l.map f).sum - (l.map g).sum| ≤ l.length * δ := by
    clear hne hpos hq
    induction l with
    | nil => simp
    | cons x xs ih =>
      simp only [List.map_cons, List.sum_cons, List.length_cons]
      have h1 := h x (by simp)
      have h2 := ih (fun y hy => h y (by simp [hy]))
      calc |f x + (xs.map f).sum - (g x + (xs.map g).sum)|
          = |(f x - g x) + ((xs.map f).sum - (xs.map g).sum)| := by ring_nf
        _ ≤ |f x - g x| + |(xs.map f).sum - (xs.map g).sum| := abs_add_le _ _
        _ ≤ _ := by push_cast; linarith
  unfold meanOf
  rw [List.length_map, List.length_map, ← sub_div, abs_div, Nat.abs_cast, div_le_iff₀ hq]
  linarith

theorem roundedVar_accurate (ρ : Rounding) (hr : Faithful ρ.dec limit) (hs : Faithful ρ.sq limit)
    {eps eps' : ℚ} (ha : Accurate ρ.dec eps) (he : 0 ≤ eps) (ha' : Accurate ρ.sq eps')
    (he' : 0 ≤ eps') (l : List ℚ) (hne : l ≠ []) (hl : ∀ x ∈ l, 0 ≤ x ∧ x ≤ 1)
    (hn : l.length ≤ limit) :
    |roundedVar ρ l - varOf l| ≤
      ((1 + eps) ^ (l.length + 1) - 1) + 2 * ((1 + eps) ^ (l.length + 2) - 1) + eps' := by
  have hpos : 0 < l.length := List.length_pos_iff.2 hne
  have h1 : (1 : ℕ) ≤ limit := by omega
  have hpow : ∀ k : ℕ, (0 : ℚ) ≤ (1 + eps) ^ k - 1 := fun k => by
    have : (1 : ℚ) ≤ (1 + eps) ^ k := one_le_pow₀ (by linarith)
    linarith
  have hone : ∀ z : ℤ, |z| ≤ 1 → (l.length : ℤ) * |z| ≤ limit := by
    intro z hz
    have : (0 : ℤ) ≤ l.length := by positivity
    have h2 : (l.length : ℤ) ≤ limit := by exact_mod_cast hn
    nlinarith
  have hm := roundedMean_bounds hr l hne 0 1 (by simpa using hl) (hone 0 (by simp))
    (hone 1 (by simp))
  have habs : ∀ q : List ℚ, q ≠ [] → (∀ x ∈ q, 0 ≤ x ∧ x ≤ 1) → 0 ≤ meanOf (q.map abs) ∧
      meanOf (q.map abs) ≤ 1 := by
    intro q hq h
    refine meanOf_bounds (q.map abs) (by simpa using hq) 0 1 ?_ ?_
    · intro x hx
      obtain ⟨y, -, rfl⟩ := List.mem_map.1 hx
      exact abs_nonneg y
    · intro x hx
      obtain ⟨y, hy, rfl⟩ := List.mem_map.1 hx
      rw [abs_of_nonneg (h y hy).1]; exact (h y hy).2
  have hm0 := meanOf_bounds l hne 0 1 (fun x hx => (hl x hx).1) (fun x hx => (hl x hx).2)
  have hmean : |roundedMean ρ.dec l - meanOf l| ≤ (1 + eps) ^ (l.length + 1) - 1 := by
    refine le_trans (roundedMean_accurate ha he l hne) ?_
    have := habs l hne hl
    nlinarith [hpow (l.length + 1)]
  set f : ℚ → ℚ := fun x =>
    ρ.sq (ρ.dec (x - roundedMean ρ.dec l) * ρ.dec (x - roundedMean ρ.dec l)) with hf
  have hd : ∀ x ∈ l, |ρ.dec (x - roundedMean ρ.dec l) - (x - meanOf l)| ≤
      (1 + eps) ^ (l.length + 2) - 1 := by
    intro x hx
    have hx' := hl x hx
    have hxM : |x - meanOf l| ≤ 1 := by rw [abs_le]; constructor <;> linarith [hm0.1, hm0.2]
    have hy : |(x - roundedMean ρ.dec l) - (x - meanOf l)| ≤
        ((1 + eps) ^ (l.length + 1) - 1) * 1 := by
      rw [show x - roundedMean ρ.dec l - (x - meanOf l) = -(roundedMean ρ.dec l - meanOf l) by ring,
        abs_neg, mul_one]
      exact hmean
    refine le_trans (accurate_step ha he hxM hy) (le_of_eq ?_)
    rw [pow_succ (1 + eps) (l.length + 1)]; ring
  have hrange : ∀ x ∈ l, |ρ.dec (x - roundedMean ρ.dec l)| ≤ 1 := by
    intro x hx
    have hx' := hl x hx
    push_cast at hm
    rw [abs_le]
    constructor
    · have h := hr.mono (show ((-1 : ℤ) : ℚ) ≤ x - roundedMean ρ.dec l by
        push_cast; linarith [hm.2])
      rw [hr.int (-1) (by simpa using h1)] at h
      simpa using h
    · have := hr.mono (show x - roundedMean ρ.dec l ≤ 1 by linarith [hm.1])
      rwa [hr.one h1] at this
  have hunit : ∀ x ∈ l.map f, 0 ≤ x ∧ x ≤ 1 := by
    intro y hy
    obtain ⟨x, hx, rfl⟩ := List.mem_map.1 hy
    refine ⟨hs.nonneg (mul_self_nonneg _), ?_⟩
    have h2 := hs.mono (show ρ.dec (x - roundedMean ρ.dec l) * ρ.dec (x - roundedMean ρ.dec l) ≤ 1 by
      have := abs_le.1 (hrange x hx)
      nlinarith)
    rwa [hs.one h1] at h2
  have hsquares : ∀ x ∈ l, |f x - (x - meanOf l) ^ 2| ≤
      2 * ((1 + eps) ^ (l.length + 2) - 1) + eps' := by
    intro x hx
    have hx' := hl x hx
    have hxM : |x - meanOf l| ≤ 1 := by rw [abs_le]; constructor <;> linarith [hm0.1, hm0.2]
    have h2 := hrange x hx
    have h3 := hd x hx
    set d' := ρ.dec (x - roundedMean ρ.dec l) with hd'
    set d := x - meanOf l with hdd
    have h4 : |ρ.sq (d' * d') - d' * d'| ≤ eps' := by
      refine le_trans (ha' _) ?_
      have h5 : |d' * d'| ≤ 1 := by
        rw [abs_mul]; nlinarith [abs_nonneg d']
      nlinarith
    have h6 : |d' * d' - d ^ 2| ≤ 2 * ((1 + eps) ^ (l.length + 2) - 1) := by
      rw [show d' * d' - d ^ 2 = (d' - d) * (d' + d) by ring, abs_mul]
      have h7 : |d' + d| ≤ 2 := le_trans (abs_add_le _ _) (by linarith)
      calc |d' - d| * |d' + d| ≤ ((1 + eps) ^ (l.length + 2) - 1) * 2 :=
            mul_le_mul h3 h7 (abs_nonneg _) (hpow _)
        _ = _ := by ring
    calc |f x - d ^ 2| = |(ρ.sq (d' * d') - d' * d') + (d' * d' - d ^ 2)| := by
          show |ρ.sq (d' * d') - d ^ 2| = _
          congr 1; ring
      _ ≤ |ρ.sq (d' * d') - d' * d'| + |d' * d' - d ^ 2| := abs_add_le _ _
      _ ≤ _ := by linarith
  have hA : |roundedVar ρ l - meanOf (l.map f)| ≤ (1 + eps) ^ (l.length + 1) - 1 := by
    have h2 := roundedMean_accurate ha he (l.map f) (by simpa using hne)
    have h3 := habs (l.map f) (by simpa using hne) hunit
    rw [List.length_map] at h2
    refine le_trans h2 ?_
    nlinarith [hpow (l.length + 1)]
  have hB := meanOf_close l hne f (fun x => (x - meanOf l) ^ 2) _ hsquares
  calc |roundedVar ρ l - varOf l|
      = |(roundedVar ρ l - meanOf (l.map f)) + (meanOf (l.map f) - varOf l)| := by ring_nf
    _ ≤ |roundedVar ρ l - meanOf (l.map f)| + |meanOf (l.map f) - varOf l| := abs_add_le _ _
    _ ≤ _ := by
      unfold varOf
      linarith

theorem cpython_sq_faithful : Faithful Rounding.cpython.sq (10 ^ 28) :=
  roundSig_twice_faithful (by norm_num) (by norm_num) (by norm_num)

/-- The error of `Decimal ** 2`. -/
theorem cpython_sq_accurate : Accurate Rounding.cpython.sq (1 / 10 ^ 27) := by
  have h1 := roundSig_accurate (b := 10) (p := 28) (by norm_num)
  have h2 := roundSig_accurate (b := 10) (p := 31) (by norm_num)
  intro q
  have h3 := h2 q
  have h4 := h1 (roundSig 10 31 q)
  show |roundSig 10 28 (roundSig 10 31 q) - q| ≤ _
  set y := roundSig 10 31 q
  set z := roundSig 10 28 y
  have hq := abs_nonneg q
  have h5 : |y| ≤ |q| + |y - q| := by
    calc |y| = |q + (y - q)| := by ring_nf
      _ ≤ _ := abs_add_le _ _
  have h6 : |z - q| ≤ |z - y| + |y - q| := by
    calc |z - q| = |(z - y) + (y - q)| := by ring_nf
      _ ≤ _ := abs_add_le _ _
  norm_num at h3 h4 ⊢
  linarith

end SegEval
