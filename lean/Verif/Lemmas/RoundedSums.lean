import Verif.Lemmas.RoundedMean
import Verif.Lemmas.AgreementFacts

/-!
# Sums of rounded terms
-/

namespace SegEval

open Spec

variable {r : ℚ → ℚ} {limit : ℕ} {α : Type _}

/-- Terms bounded by naturals give a sum bounded by their total. -/
theorem roundedSum_le (hr : Faithful r limit) (l : List α) (x : α → ℚ) (m : α → ℕ)
    (hx : ∀ a ∈ l, 0 ≤ x a ∧ x a ≤ m a) (k : ℕ) (s : ℚ) (hs : 0 ≤ s ∧ s ≤ k)
    (hl : k + (l.map m).sum ≤ limit) :
    0 ≤ roundedSum r s (l.map x) ∧ roundedSum r s (l.map x) ≤ ((k + (l.map m).sum : ℕ) : ℚ) := by
  induction l generalizing k s with
  | nil => simpa [roundedSum] using hs
  | cons a l ih =>
    have ha := hx a (by simp)
    simp only [List.map_cons, List.sum_cons] at hl
    have := ih (fun b hb => hx b (by simp [hb])) (k + m a) (r (s + x a))
      ⟨hr.nonneg (by linarith), hr.le_nat (by omega) (by push_cast; linarith)⟩ (by omega)
    simp only [roundedSum, List.map_cons, List.foldl_cons, List.sum_cons] at this ⊢
    rw [← add_assoc]
    exact this

/-- Terms that are naturals are added exactly. -/
theorem roundedSum_nats (hr : Faithful r limit) (l : List α) (x : α → ℚ) (m : α → ℕ)
    (hx : ∀ a ∈ l, x a = m a) (k : ℕ) (hl : k + (l.map m).sum ≤ limit) :
    roundedSum r k (l.map x) = ((k + (l.map m).sum : ℕ) : ℚ) := by
  induction l generalizing k with
  | nil => simp [roundedSum]
  | cons a l ih =>
    have ha := hx a (by simp)
    simp only [List.map_cons, List.sum_cons] at hl
    have := ih (fun b hb => hx b (by simp [hb])) (k + m a) (by omega)
    simp only [roundedSum, List.map_cons, List.foldl_cons, List.sum_cons] at this ⊢
    rw [ha, ← add_assoc, ← this]
    congr 1
    rw [← Nat.cast_add]
    exact hr.nat (by omega)

/-- Errors of the terms and of the additions together. -/
theorem roundedSum_perturbed {eps : ℚ} (ha : Accurate r eps) (he : 0 ≤ eps) (l : List α)
    (x x' m : α → ℚ) (j : ℕ)
    (hx : ∀ a ∈ l, |x a| ≤ m a ∧ |x' a - x a| ≤ ((1 + eps) ^ j - 1) * m a) (k : ℕ) (s s' A : ℚ)
    (hA : |s| ≤ A) (hs : |s' - s| ≤ ((1 + eps) ^ (j + k) - 1) * A) :
    |roundedSum r s' (l.map x') - (s + (l.map x).sum)| ≤
      ((1 + eps) ^ (j + k + l.length) - 1) * (A + (l.map m).sum) := by
  induction l generalizing k s s' A with
  | nil => simpa [roundedSum] using hs
  | cons a l ih =>
    obtain ⟨h1, h2⟩ := hx a (by simp)
    have hm : 0 ≤ m a := le_trans (abs_nonneg _) h1
    have hmono : (1 + eps) ^ j ≤ (1 + eps) ^ (j + k) := pow_le_pow_right₀ (by linarith) (by omega)
    have hb : |s + x a| ≤ A + m a := le_trans (abs_add_le _ _) (by linarith)
    have hstep : |(s' + x' a) - (s + x a)| ≤ ((1 + eps) ^ (j + k) - 1) * (A + m a) := by
      rw [show s' + x' a - (s + x a) = (s' - s) + (x' a - x a) by ring]
      refine le_trans (abs_add_le _ _) ?_
      nlinarith
    have h := accurate_step ha he hb hstep
    have := ih (fun b hb => hx b (by simp [hb])) (k + 1) (s + x a) (r (s' + x' a)) (A + m a) hb (by
      refine le_trans h (le_of_eq ?_)
      rw [← add_assoc, pow_succ]; ring)
    simp only [roundedSum, List.map_cons, List.foldl_cons, List.sum_cons, List.length_cons] at this ⊢
    rw [show j + k + (l.length + 1) = j + (k + 1) + l.length by ring, ← add_assoc s,
      ← add_assoc A]
    exact this

/-- The same after dividing by any positive number. -/
theorem roundedRatio_perturbed {eps : ℚ} (ha : Accurate r eps) (he : 0 ≤ eps) (l : List α)
    (x x' m : α → ℚ) (j : ℕ)
    (hx : ∀ a ∈ l, |x a| ≤ m a ∧ |x' a - x a| ≤ ((1 + eps) ^ j - 1) * m a) {d : ℚ} (hd : 0 < d) :
    |r (roundedSum r 0 (l.map x') / d) - (l.map x).sum / d| ≤
      ((1 + eps) ^ (j + l.length + 1) - 1) * ((l.map m).sum / d) := by
  have hone : (1 : ℚ) ≤ (1 + eps) ^ (j + 0) := one_le_pow₀ (by linarith)
  have h := roundedSum_perturbed ha he l x x' m j hx 0 0 0 0 (by simp) (by simp)
  simp only [zero_add, add_zero] at h
  have hsum : |(l.map x).sum| ≤ (l.map m).sum := by
    clear h ha
    induction l with
    | nil => simp
    | cons a l ih =>
      simp only [List.map_cons, List.sum_cons]
      have h1 := (hx a (by simp)).1
      have h2 := ih (fun b hb => hx b (by simp [hb]))
      exact le_trans (abs_add_le _ _) (by linarith)
  have h1 : |(l.map x).sum / d| ≤ (l.map m).sum / d := by
    rw [abs_div, abs_of_pos hd]
    exact div_le_div_of_nonneg_right hsum hd.le
  have h2 : |roundedSum r 0 (l.map x') / d - (l.map x).sum / d| ≤
      ((1 + eps) ^ (j + l.length) - 1) * ((l.map m).sum / d) := by
    rw [← sub_div, abs_div, abs_of_pos hd, ← mul_div_assoc]
    exact div_le_div_of_nonneg_right h hd.le
  refine le_trans (accurate_step ha he h1 h2) (le_of_eq ?_)
  rw [pow_succ]; ring

/-- A rounded sum of `Decimal`s. -/
theorem pySumR_dec (ρ : Rounding) (l : List ℚ) (hl : l ≠ []) :
    pySumR ρ (l.map .dec) = .ok (.dec (roundedSum ρ.dec 0 l)) := by
  cases l with
  | nil => exact absurd rfl hl
  | cons x xs =>
    have := forLoop_addR_dec ρ (xs.map .dec) (ρ.dec (0 + x)) (by
      intro y hy; obtain ⟨q, -, rfl⟩ := List.mem_map.1 hy; trivial)
    simp only [pySumR, List.map_cons, forLoop, addR_int_dec, Int.cast_zero]
    rw [this, List.map_map]
    simp [roundedSum, Function.comp_def, PyNum.val]

theorem forLoop_addR_int (ρ : Rounding) (l : List ℤ) (s : ℤ) :
    forLoop (l.map .int) (.int s) (PyNum.addR ρ) = .ok (.int (s + l.sum)) := by
  induction l generalizing s with
  | nil => simp [forLoop]
  | cons x xs ih =>
    have : PyNum.addR ρ (.int s) (.int x) = .ok (.int (s + x)) := rfl
    rw [List.map_cons, forLoop, this]
    simp only
    rw [ih, List.sum_cons, add_assoc]

theorem pySumR_int (ρ : Rounding) (l : List ℤ) : pySumR ρ (l.map .int) = .ok (.int l.sum) := by
  rw [pySumR, forLoop_addR_int, zero_add]

theorem decimalMeanR_ok (ρ : Rounding) (l : List ℚ) (x : PyNum) :
    decimalMeanR ρ (l.map .dec) = .ok x ↔ l ≠ [] ∧ x = .dec (roundedMean ρ.dec l) := by
  by_cases hl : l = []
  · subst hl
    simp [decimalMeanR, pySumR, forLoop, PyNum.truedivR, PyNum.truediv, PyNum.decDiv,
      PyNum.toDecimal, PyNum.val]
  · have hpos : (l.length : ℤ) ≠ 0 := by simpa using hl
    unfold decimalMeanR
    rw [pySumR_dec ρ l hl]
    simp only [PyNum.toDecimal, PyNum.val, List.length_map]
    rw [truedivR_dec_int ρ _ hpos]
    simp [roundedMean, hl, eq_comm]

theorem rateR_ok (ρ : Rounding) (p : ℤ × ℤ) (x : PyNum) :
    PyNum.truedivR ρ (.dec p.1) (.int p.2) = .ok x ↔ p.2 ≠ 0 ∧ x = .dec (ρ.dec (rateOf p)) := by
  unfold PyNum.truedivR
  cases h : (PyNum.dec (p.1 : ℚ)).truediv (.int p.2) with
  | error e =>
    simp only [reduceCtorEq, false_iff]
    rintro ⟨h1, -⟩
    rw [(rate_ok p _).2 ⟨h1, rfl⟩] at h; cases h
  | ok z =>
    obtain ⟨h1, rfl⟩ := (rate_ok p z).1 h
    simp [h1, PyNum.rnd, eq_comm]

theorem ratiosR_ok (ρ : Rounding) (l : List (ℤ × ℤ)) (out : List PyNum) :
    ratiosR ρ l = .ok out ↔
      (∀ p ∈ l, p.2 ≠ 0) ∧ out = (l.map fun p => ρ.dec (rateOf p)).map PyNum.dec :=
  collect_dec (fun p : ℤ × ℤ => PyNum.truedivR ρ (.dec p.1) (.int p.2)) (fun p => ρ.dec (rateOf p))
    (fun p => p.2 ≠ 0) (rateR_ok ρ) l out

/-- Expected agreement of pi with rounding, from the flat list of boundary counts. -/
def roundedPiAe (ρ : Rounding) (l : List (ℤ × ℤ)) : ℚ :=
  ρ.sq (roundedMean ρ.dec (l.map fun p => ρ.dec (rateOf p)) *
    roundedMean ρ.dec (l.map fun p => ρ.dec (rateOf p)))

theorem piExpectedR_ok (ρ : Rounding) (cb : List (Name × List (ℤ × ℤ))) (x : PyNum) :
    piExpectedR ρ cb = .ok x ↔ cb.flatMap Prod.snd ≠ [] ∧ (∀ p ∈ cb.flatMap Prod.snd, p.2 ≠ 0) ∧
      x = .dec (roundedPiAe ρ (cb.flatMap Prod.snd)) := by
  unfold piExpectedR
  cases h : ratiosR ρ (cb.flatMap Prod.snd) with
  | error e =>
    simp only [reduceCtorEq, false_iff]
    rintro ⟨_, h1, _⟩
    rw [(ratiosR_ok ρ _ _).2 ⟨h1, rfl⟩] at h; cases h
  | ok ps =>
    obtain ⟨h1, rfl⟩ := (ratiosR_ok ρ _ _).1 h
    simp only
    cases h2 : decimalMeanR ρ (((cb.flatMap Prod.snd).map fun p => ρ.dec (rateOf p)).map .dec) with
    | error e =>
      simp only [reduceCtorEq, false_iff]
      rintro ⟨h3, _⟩
      rw [(decimalMeanR_ok ρ _ _).2 ⟨by simpa using h3, rfl⟩] at h2; cases h2
    | ok p =>
      obtain ⟨h3, rfl⟩ := (decimalMeanR_ok ρ _ _).1 h2
      have h3' : cb.flatMap Prod.snd ≠ [] := by
        intro h0; rw [h0] at h3; exact h3 rfl
      simp only [PyNum.sqR, Except.ok.injEq]
      constructor
      · rintro rfl; exact ⟨h3', h1, rfl⟩
      · rintro ⟨_, _, rfl⟩; rfl

theorem rateProductR_ok (ρ : Rounding) (m n : List (ℤ × ℤ)) (x : PyNum) :
    rateProductR ρ m n = .ok x ↔ ((tally m).2 ≠ 0 ∧ (tally n).2 ≠ 0) ∧
      x = .dec (ρ.dec (ρ.dec (rateOf (tally m)) * ρ.dec (rateOf (tally n)))) := by
  unfold rateProductR
  have hm := rateR_ok ρ (tally m)
  have hn := rateR_ok ρ (tally n)
  simp only [tally] at hm hn ⊢
  cases h1 : PyNum.truedivR ρ (.dec (((m.map Prod.fst).sum : ℤ) : ℚ)) (.int (m.map Prod.snd).sum) with
  | error e =>
    simp only [reduceCtorEq, false_iff]
    rintro ⟨⟨h2, _⟩, _⟩
    rw [(hm _).2 ⟨h2, rfl⟩] at h1; cases h1
  | ok a =>
    obtain ⟨a1, rfl⟩ := (hm _).1 h1
    simp only
    cases h2 : PyNum.truedivR ρ (.dec (((n.map Prod.fst).sum : ℤ) : ℚ))
        (.int (n.map Prod.snd).sum) with
    | error e =>
      simp only [reduceCtorEq, false_iff]
      rintro ⟨⟨_, h3⟩, _⟩
      rw [(hn _).2 ⟨h3, rfl⟩] at h2; cases h2
    | ok b =>
      obtain ⟨b1, rfl⟩ := (hn _).1 h2
      simp only [PyNum.mulR, PyNum.mul, PyNum.rnd, Except.ok.injEq]
      constructor
      · rintro rfl; exact ⟨⟨a1, b1⟩, rfl⟩
      · rintro ⟨_, rfl⟩; rfl

/-- Expected agreement of kappa with rounding, from the per-coder sums. -/
def roundedKappaAe (ρ : Rounding) (l : List (ℤ × ℤ)) : ℚ :=
  roundedMean ρ.dec ((combinations2 l).map fun p =>
    ρ.dec (ρ.dec (rateOf p.1) * ρ.dec (rateOf p.2)))

theorem kappaExpectedR_ok (ρ : Rounding) (cb : List (Name × List (ℤ × ℤ))) (x : PyNum) :
    kappaExpectedR ρ cb = .ok x ↔ 2 ≤ cb.length ∧ (∀ e ∈ cb, (tally e.2).2 ≠ 0) ∧
      x = .dec (roundedKappaAe ρ (cb.map (fun e => tally e.2))) := by
  unfold kappaExpectedR
  have hc := collect_dec (fun mn : (Name × List (ℤ × ℤ)) × (Name × List (ℤ × ℤ)) =>
    rateProductR ρ mn.1.2 mn.2.2)
    (fun mn => ρ.dec (ρ.dec (rateOf (tally mn.1.2)) * ρ.dec (rateOf (tally mn.2.2))))
    (fun mn => (tally mn.1.2).2 ≠ 0 ∧ (tally mn.2.2).2 ≠ 0)
    (fun mn x => rateProductR_ok ρ mn.1.2 mn.2.2 x) (combinations2 cb)
  change ∀ out, forLoop (combinations2 cb) [] (productStepR ρ) = .ok out ↔ _ at hc
  have hpp : (combinations2 (cb.map (fun e => tally e.2))).map (fun p =>
      ρ.dec (ρ.dec (rateOf p.1) * ρ.dec (rateOf p.2))) =
      (combinations2 cb).map (fun mn =>
        ρ.dec (ρ.dec (rateOf (tally mn.1.2)) * ρ.dec (rateOf (tally mn.2.2)))) := by
    rw [combinations2_map, List.map_map]; rfl
  cases h : forLoop (combinations2 cb) [] (productStepR ρ) with
  | error e =>
    simp only [reduceCtorEq, false_iff]
    rintro ⟨h1, h2, _⟩
    rw [← forall_combinations2 (fun e : Name × List (ℤ × ℤ) => (tally e.2).2 ≠ 0) cb h1] at h2
    rw [(hc _).2 ⟨h2, rfl⟩] at h; cases h
  | ok ps =>
    obtain ⟨h1, rfl⟩ := (hc _).1 h
    simp only
    rw [decimalMeanR_ok, roundedKappaAe, hpp]
    constructor
    · rintro ⟨h2, rfl⟩
      have h3 : 2 ≤ cb.length := by rw [← combinations2_ne_nil]; simpa using h2
      exact ⟨h3, (forall_combinations2 _ cb h3).1 h1, rfl⟩
    · rintro ⟨h2, _, rfl⟩
      exact ⟨by simpa using (combinations2_ne_nil cb).2 h2, rfl⟩

end SegEval
