import Verif.Lemmas.RoundedAgreement

/-!
# Actual and expected agreement with rounding: bounds, errors and gaps
-/

namespace SegEval

open Spec

variable {r : ℚ → ℚ} {limit : ℕ} {α : Type _}

theorem roundedSum_id (s : ℚ) (l : List ℚ) : roundedSum id s l = s + l.sum := by
  induction l generalizing s with
  | nil => simp [roundedSum]
  | cons x xs ih =>
    have := ih (s + x)
    simp only [roundedSum, List.foldl_cons, id, List.sum_cons] at this ⊢
    rw [this, add_assoc]

theorem roundedMean_id (l : List ℚ) : roundedMean id l = meanOf l := by
  simp [roundedMean, roundedSum_id, meanOf]

theorem Spec.Faithful.unit (hr : Faithful r limit) (h1 : 1 ≤ limit) {q : ℚ} (h : 0 ≤ q ∧ q ≤ 1) :
    0 ≤ r q ∧ r q ≤ 1 := by
  have := hr.le_nat h1 (q := q) (by simpa using h.2)
  exact ⟨hr.nonneg h.1, by simpa using this⟩

/-! ## Actual agreement -/

/-- The sum of denominators. -/
def denTotal (l : List (Comparison × Job)) : ℕ := (l.map fun t => t.1.den).sum

/-- Actual agreement with rounding. -/
def aaOf (r : ℚ → ℚ) (nT : ℤ) (l : List (Comparison × Job)) : ℚ :=
  r (roundedSum r 0 (l.map fun t => t.1.num r nT) / denTotal l)

theorem length_le_denTotal {nT : ℤ} {l : List (Comparison × Job)} (hg : ∀ t ∈ l, t.1.Good nT) :
    l.length ≤ denTotal l := by
  induction l with
  | nil => simp
  | cons t l ih =>
    have h1 := (hg t (by simp)).pos
    have h2 := ih (fun x hx => hg x (by simp [hx]))
    simp only [denTotal, List.map_cons, List.sum_cons, List.length_cons] at h2 ⊢
    omega

theorem den_le_total {l : List (Comparison × Job)} {t : Comparison × Job} (ht : t ∈ l) :
    t.1.den ≤ denTotal l :=
  List.single_le_sum (by simp) _ (List.mem_map.2 ⟨t, ht, rfl⟩)

theorem denTotal_pos {nT : ℤ} {l : List (Comparison × Job)} (hg : ∀ t ∈ l, t.1.Good nT)
    (hne : l ≠ []) : 0 < denTotal l :=
  lt_of_lt_of_le (List.length_pos_iff.2 hne) (length_le_denTotal hg)

theorem aaOf_bounds (hr : Faithful r limit) {nT : ℤ} {l : List (Comparison × Job)}
    (hg : ∀ t ∈ l, t.1.Good nT) (hne : l ≠ []) (hl : denTotal l ≤ limit) :
    0 ≤ aaOf r nT l ∧ aaOf r nT l ≤ 1 := by
  have hpos := denTotal_pos hg hne
  have hq : (0 : ℚ) < denTotal l := by exact_mod_cast hpos
  have h := roundedSum_le hr l (fun t => t.1.num r nT) (fun t => t.1.den)
    (fun t ht => (hg t ht).num_bounds hr (le_trans (den_le_total ht) hl)) 0 0 (by simp)
    (by simpa [denTotal] using hl)
  rw [Nat.zero_add] at h
  exact hr.unit (by omega) ⟨div_nonneg h.1 hq.le, (div_le_one hq).2 h.2⟩

theorem aaOf_full (hr : Faithful r limit) {nT : ℤ} {l : List (Comparison × Job)}
    (hg : ∀ t ∈ l, t.1.Good nT) (hne : l ≠ []) (hl : denTotal l ≤ limit)
    (h0 : ∀ t ∈ l, editCount t.1.edits = 0) : aaOf r nT l = 1 := by
  have hpos := denTotal_pos hg hne
  have hq : (denTotal l : ℚ) ≠ 0 := by exact_mod_cast hpos.ne'
  have h := roundedSum_nats hr l (fun t => t.1.num r nT) (fun t => t.1.den)
    (fun t ht => Comparison.Good.num_full hr (le_trans (den_le_total ht) hl) (h0 t ht)) 0
    (by simpa [denTotal] using hl)
  rw [Nat.zero_add] at h
  unfold aaOf
  rw [show (0 : ℚ) = ((0 : ℕ) : ℚ) by simp, h]
  change r ((denTotal l : ℚ) / denTotal l) = 1
  rw [div_self hq, hr.one (by omega)]

theorem aaOf_accurate {eps : ℚ} (ha : Accurate r eps) (he : 0 ≤ eps) {nT : ℤ}
    {l : List (Comparison × Job)} (hg : ∀ t ∈ l, t.1.Good nT) (hne : l ≠ []) :
    |aaOf r nT l - aaOf id nT l| ≤ (1 + eps) ^ (l.length + 5) - 1 := by
  have hpos := denTotal_pos hg hne
  have hq : (0 : ℚ) < denTotal l := by exact_mod_cast hpos
  have h := roundedRatio_perturbed ha he l (fun t => t.1.num id nT) (fun t => t.1.num r nT)
    (fun t => (t.1.den : ℚ)) 4 (fun t ht => ⟨by
      rw [abs_of_nonneg (hg t ht).exact_bounds.1]; exact (hg t ht).exact_bounds.2,
      (hg t ht).num_accurate ha he⟩) hq
  have e1 : (l.map fun t => (t.1.den : ℚ)).sum = denTotal l := by
    unfold denTotal; push_cast; rw [List.map_map]; rfl
  rw [e1, div_self hq.ne', mul_one, show 4 + l.length + 1 = l.length + 5 by omega] at h
  have e2 : aaOf id nT l = (l.map fun t => t.1.num id nT).sum / denTotal l := by
    simp [aaOf, roundedSum_id]
  rw [e2]
  exact h

theorem aaOf_exact {nT : ℤ} {l : List (Comparison × Job)} :
    aaOf id nT l = (l.map fun t => t.1.num id nT).sum / denTotal l := by
  simp [aaOf, roundedSum_id]

theorem sum_gap {l : List α} (f m : α → ℚ) (hf : ∀ a ∈ l, f a ≤ m a) {g : ℚ} {a : α} (ha : a ∈ l)
    (h : f a ≤ m a - g) : (l.map f).sum ≤ (l.map m).sum - g := by
  induction l with
  | nil => simp at ha
  | cons b l ih =>
    simp only [List.map_cons, List.sum_cons]
    rcases List.mem_cons.1 ha with rfl | ha'
    · have : (l.map f).sum ≤ (l.map m).sum :=
        (sum_le_eq l f m (fun x hx => hf x (by simp [hx]))).1
      linarith
    · have := ih (fun x hx => hf x (by simp [hx])) ha'
      have := hf b (by simp)
      linarith

theorem aaOf_gap {nT M : ℤ} {l : List (Comparison × Job)} (hg : ∀ t ∈ l, t.1.Good nT)
    (hM : nT ≤ M) (hR : ∀ t ∈ l, t.1.range ≤ M) {t : Comparison × Job} (ht : t ∈ l)
    (h0 : editCount t.1.edits ≠ 0) : aaOf id nT l ≤ 1 - 1 / (M * denTotal l) := by
  have hpos := denTotal_pos hg (List.ne_nil_of_mem ht)
  have hq : (0 : ℚ) < denTotal l := by exact_mod_cast hpos
  have h := sum_gap (fun t : Comparison × Job => t.1.num id nT) (fun t => (t.1.den : ℚ))
    (fun a ha => (hg a ha).exact_bounds.2) ht ((hg t ht).gap (hR t ht) hM h0)
  have e1 : (l.map fun t => (t.1.den : ℚ)).sum = denTotal l := by
    unfold denTotal; push_cast; rw [List.map_map]; rfl
  rw [e1] at h
  rw [aaOf_exact, div_le_iff₀ hq]
  refine le_trans h (le_of_eq ?_)
  have hMr : (M : ℚ) ≠ 0 := by
    have := (hg t ht).script.range_pos
    have := hR t ht
    exact_mod_cast (by omega : M ≠ 0)
  field_simp

/-! ## Means of rates -/

theorem roundedMean_perturbed {eps : ℚ} (ha : Accurate r eps) (he : 0 ≤ eps) (l : List α)
    (hne : l ≠ []) (f f' : α → ℚ) (j : ℕ) (hf : ∀ a ∈ l, 0 ≤ f a ∧ f a ≤ 1)
    (hx : ∀ a ∈ l, |f' a - f a| ≤ (1 + eps) ^ j - 1) :
    |roundedMean r (l.map f') - meanOf (l.map f)| ≤ (1 + eps) ^ (l.length + j + 1) - 1 := by
  have hq : (0 : ℚ) < l.length := by exact_mod_cast List.length_pos_iff.2 hne
  have h := roundedRatio_perturbed ha he l f f' (fun _ => 1) j (fun a hal =>
    ⟨by rw [abs_of_nonneg (hf a hal).1]; exact (hf a hal).2, by simpa using hx a hal⟩) hq
  have e1 : (l.map fun _ => (1 : ℚ)).sum = l.length := by simp
  rw [e1, div_self hq.ne', mul_one, show j + l.length + 1 = l.length + j + 1 by omega] at h
  simpa [roundedMean, meanOf] using h

theorem roundedMean_unit (hr : Faithful r limit) {l : List ℚ} (hne : l ≠ [])
    (hl : ∀ x ∈ l, 0 ≤ x ∧ x ≤ 1) (hn : l.length ≤ limit) :
    0 ≤ roundedMean r l ∧ roundedMean r l ≤ 1 := by
  have := roundedMean_bounds hr l hne 0 1 (by simpa using hl) (by simp)
    (by simpa using hn)
  simpa using this

theorem roundedMean_ones (hr : Faithful r limit) {l : List ℚ} (hne : l ≠ [])
    (hl : ∀ x ∈ l, x = 1) (hn : l.length ≤ limit) : roundedMean r l = 1 := by
  have := roundedMean_bounds hr l hne 1 1 (fun x hx => by rw [hl x hx]; simp) (by simpa using hn)
    (by simpa using hn)
  push_cast at this
  exact le_antisymm this.2 this.1

theorem meanOf_gap {l : List α} (f : α → ℚ) (hf : ∀ a ∈ l, f a ≤ 1) {g : ℚ} {a : α} (ha : a ∈ l)
    (h : f a ≤ 1 - g) : meanOf (l.map f) ≤ 1 - g / l.length := by
  have hq : (0 : ℚ) < l.length := by
    exact_mod_cast List.length_pos_iff.2 (List.ne_nil_of_mem ha)
  have := sum_gap f (fun _ => 1) hf ha h
  rw [List.map_const', List.sum_replicate, nsmul_eq_mul, mul_one] at this
  unfold meanOf
  rw [List.length_map, div_le_iff₀ hq]
  refine le_trans this (le_of_eq ?_)
  field_simp

theorem rate_gap {p : ℤ × ℤ} {P : ℚ} (h2 : 0 < p.2) (hP : (p.2 : ℚ) ≤ P) (h : p.1 < p.2) :
    rateOf p ≤ 1 - 1 / P := by
  have hq : (0 : ℚ) < p.2 := by exact_mod_cast h2
  have h1 : (p.1 : ℚ) ≤ p.2 - 1 := by
    have : p.1 ≤ p.2 - 1 := by omega
    exact_mod_cast this
  have h3 : (1 : ℚ) / P ≤ 1 / p.2 := one_div_le_one_div_of_le hq hP
  have h4 : rateOf p ≤ 1 - 1 / p.2 := by
    rw [rateOf, div_le_iff₀ hq, sub_mul, one_mul, one_div, inv_mul_cancel₀ hq.ne']; exact h1
  linarith

/-- Counts of boundaries and of potential boundaries. -/
def Rates (l : List (ℤ × ℤ)) : Prop := ∀ p ∈ l, 0 ≤ p.1 ∧ p.1 ≤ p.2 ∧ 0 < p.2

theorem Rates.unit {l : List (ℤ × ℤ)} (h : Rates l) {p : ℤ × ℤ} (hp : p ∈ l) :
    0 ≤ rateOf p ∧ rateOf p ≤ 1 := by
  obtain ⟨h1, h2, h3⟩ := h p hp
  obtain ⟨g1, g2, -⟩ := rateOf_unit h1 h2 h3
  exact ⟨g1, g2⟩

theorem Rates.one {l : List (ℤ × ℤ)} (h : Rates l) {p : ℤ × ℤ} (hp : p ∈ l) (he : p.1 = p.2) :
    rateOf p = 1 := by
  obtain ⟨h1, h2, h3⟩ := h p hp
  exact (rateOf_unit h1 h2 h3).2.2.2 he

/-! ### Fleiss' pi -/

/-- Expected agreement of pi, exact. -/
def exactPiAe (l : List (ℤ × ℤ)) : ℚ := meanOf (l.map rateOf) * meanOf (l.map rateOf)

theorem roundedPiAe_exact (l : List (ℤ × ℤ)) : roundedPiAe .exact l = exactPiAe l := by
  simp only [roundedPiAe, Rounding.exact, id]
  rw [roundedMean_id]; rfl

theorem piMean_unit {l : List (ℤ × ℤ)} (hne : l ≠ []) (h : Rates l) :
    0 ≤ meanOf (l.map rateOf) ∧ meanOf (l.map rateOf) ≤ 1 := by
  obtain ⟨h1, h2, -⟩ := meanOf_unit (l.map rateOf) (by simpa using hne) (by
    intro x hx; obtain ⟨p, hp, rfl⟩ := List.mem_map.1 hx; exact h.unit hp)
  exact ⟨h1, h2⟩

theorem exactPiAe_unit {l : List (ℤ × ℤ)} (hne : l ≠ []) (h : Rates l) :
    0 ≤ exactPiAe l ∧ exactPiAe l ≤ 1 :=
  (unit_mul (piMean_unit hne h) (piMean_unit hne h)).1

theorem piMeanR_unit (hr : Faithful r limit) {l : List (ℤ × ℤ)} (hne : l ≠ []) (h : Rates l)
    (hn : l.length ≤ limit) :
    0 ≤ roundedMean r (l.map fun p => r (rateOf p)) ∧
      roundedMean r (l.map fun p => r (rateOf p)) ≤ 1 := by
  have hpos := List.length_pos_iff.2 hne
  refine roundedMean_unit hr (by simpa using hne) ?_ (by simpa using hn)
  intro x hx
  obtain ⟨p, hp, rfl⟩ := List.mem_map.1 hx
  exact hr.unit (by omega) (h.unit hp)

theorem roundedPiAe_unit {ρ : Rounding} (hr : Faithful ρ.dec limit) (hs : Faithful ρ.sq limit)
    {l : List (ℤ × ℤ)} (hne : l ≠ []) (h : Rates l) (hn : l.length ≤ limit) :
    0 ≤ roundedPiAe ρ l ∧ roundedPiAe ρ l ≤ 1 := by
  have hpos := List.length_pos_iff.2 hne
  have hm := piMeanR_unit hr hne h hn
  exact hs.unit (by omega) (unit_mul hm hm).1

theorem roundedPiAe_full {ρ : Rounding} (hr : Faithful ρ.dec limit) (hs : Faithful ρ.sq limit)
    {l : List (ℤ × ℤ)} (hne : l ≠ []) (h : Rates l) (hn : l.length ≤ limit)
    (he : ∀ p ∈ l, p.1 = p.2) : roundedPiAe ρ l = 1 := by
  have hpos := List.length_pos_iff.2 hne
  unfold roundedPiAe
  rw [roundedMean_ones hr (by simpa using hne) (by
    intro x hx
    obtain ⟨p, hp, rfl⟩ := List.mem_map.1 hx
    rw [h.one hp (he p hp), hr.one (by omega)]) (by simpa using hn), mul_one, hs.one (by omega)]

theorem sq_close {x y E : ℚ} (hx : 0 ≤ x ∧ x ≤ 1) (hy : 0 ≤ y ∧ y ≤ 1) (h : |x - y| ≤ E) :
    |x * x - y * y| ≤ 2 * E := by
  rw [show x * x - y * y = (x - y) * (x + y) by ring, abs_mul, abs_of_nonneg (by linarith : 0 ≤ x + y)]
  have := abs_nonneg (x - y)
  nlinarith

theorem roundedPiAe_accurate {ρ : Rounding} (hr : Faithful ρ.dec limit) {eps eps' : ℚ}
    (ha : Accurate ρ.dec eps) (he : 0 ≤ eps) (ha' : Accurate ρ.sq eps') (he' : 0 ≤ eps')
    {l : List (ℤ × ℤ)} (hne : l ≠ []) (h : Rates l) (hn : l.length ≤ limit) :
    |roundedPiAe ρ l - exactPiAe l| ≤ 2 * ((1 + eps) ^ (l.length + 2) - 1) + eps' := by
  have hm := piMeanR_unit hr hne h hn
  have hm' := piMean_unit hne h
  have h1 := roundedMean_perturbed ha he l hne rateOf (fun p => ρ.dec (rateOf p)) 1
    (fun p hp => h.unit hp) (fun p hp => by
      have h1 := ha (rateOf p)
      have h2 := h.unit hp
      rw [abs_of_nonneg h2.1] at h1
      have : eps * rateOf p ≤ eps := mul_le_of_le_one_right he h2.2
      simp only [pow_one]
      linarith)
  have h2 := sq_close hm hm' h1
  have h3 := ha' (roundedMean ρ.dec (l.map fun p => ρ.dec (rateOf p)) *
    roundedMean ρ.dec (l.map fun p => ρ.dec (rateOf p)))
  obtain ⟨⟨p0, p1⟩, -⟩ := unit_mul hm hm
  rw [abs_of_nonneg p0] at h3
  have h4 : eps' * (roundedMean ρ.dec (l.map fun p => ρ.dec (rateOf p)) *
    roundedMean ρ.dec (l.map fun p => ρ.dec (rateOf p))) ≤ eps' := mul_le_of_le_one_right he' p1
  unfold roundedPiAe exactPiAe
  refine le_trans (abs_sub_le _ (roundedMean ρ.dec (l.map fun p => ρ.dec (rateOf p)) *
    roundedMean ρ.dec (l.map fun p => ρ.dec (rateOf p))) _) ?_
  linarith

theorem exactPiAe_gap {l : List (ℤ × ℤ)} (h : Rates l) {P : ℚ} (hP : ∀ p ∈ l, (p.2 : ℚ) ≤ P)
    (hne : ¬∀ p ∈ l, p.1 = p.2) : exactPiAe l ≤ 1 - 1 / (l.length * P) := by
  push Not at hne
  obtain ⟨p, hp, hd⟩ := hne
  have h1 := meanOf_gap rateOf (fun q hq => (h.unit hq).2) hp
    (rate_gap (h p hp).2.2 (hP p hp) (lt_of_le_of_ne (h p hp).2.1 hd))
  have hm := piMean_unit (List.ne_nil_of_mem hp) h
  have h2 : exactPiAe l ≤ meanOf (l.map rateOf) := mul_le_of_le_one_right hm.1 hm.2
  rw [div_div, mul_comm P] at h1
  linarith

/-! ### Fleiss' kappa -/

/-- Expected agreement of kappa, exact. -/
def exactKappaAe (l : List (ℤ × ℤ)) : ℚ := meanOf (pairProducts l)

theorem roundedKappaAe_exact (l : List (ℤ × ℤ)) : roundedKappaAe .exact l = exactKappaAe l := by
  simp only [roundedKappaAe, Rounding.exact, id]
  rw [roundedMean_id]; rfl

theorem Rates.pair {l : List (ℤ × ℤ)} (h : Rates l) {p : (ℤ × ℤ) × (ℤ × ℤ)}
    (hp : p ∈ combinations2 l) : (0 ≤ rateOf p.1 ∧ rateOf p.1 ≤ 1) ∧
      (0 ≤ rateOf p.2 ∧ rateOf p.2 ≤ 1) := by
  have hs := (mem_combinations2 _ _ _).1 (show (p.1, p.2) ∈ combinations2 l from hp)
  exact ⟨h.unit (hs.subset (by simp)), h.unit (hs.subset (by simp))⟩

theorem exactKappaAe_unit {l : List (ℤ × ℤ)} (h2 : 2 ≤ l.length) (h : Rates l) :
    0 ≤ exactKappaAe l ∧ exactKappaAe l ≤ 1 := by
  obtain ⟨h1, h3, -⟩ := meanOf_unit (pairProducts l)
    (by simpa [pairProducts] using (combinations2_ne_nil l).2 h2) (by
    intro x hx; obtain ⟨p, hp, rfl⟩ := List.mem_map.1 hx
    exact (unit_mul (h.pair hp).1 (h.pair hp).2).1)
  exact ⟨h1, h3⟩

theorem roundedKappaAe_unit {ρ : Rounding} (hr : Faithful ρ.dec limit) {l : List (ℤ × ℤ)}
    (h2 : 2 ≤ l.length) (h : Rates l) (hn : (combinations2 l).length ≤ limit) :
    0 ≤ roundedKappaAe ρ l ∧ roundedKappaAe ρ l ≤ 1 := by
  have hne := (combinations2_ne_nil l).2 h2
  have hpos := List.length_pos_iff.2 hne
  refine roundedMean_unit hr (by simpa using hne) ?_ (by simpa using hn)
  intro x hx
  obtain ⟨p, hp, rfl⟩ := List.mem_map.1 hx
  exact hr.unit (by omega) (unit_mul (hr.unit (by omega) (h.pair hp).1)
    (hr.unit (by omega) (h.pair hp).2)).1

theorem roundedKappaAe_full {ρ : Rounding} (hr : Faithful ρ.dec limit) {l : List (ℤ × ℤ)}
    (h2 : 2 ≤ l.length) (h : Rates l) (hn : (combinations2 l).length ≤ limit)
    (he : ∀ p ∈ l, p.1 = p.2) : roundedKappaAe ρ l = 1 := by
  have hne := (combinations2_ne_nil l).2 h2
  have hpos := List.length_pos_iff.2 hne
  refine roundedMean_ones hr (by simpa using hne) ?_ (by simpa using hn)
  intro x hx
  obtain ⟨p, hp, rfl⟩ := List.mem_map.1 hx
  have hs := (mem_combinations2 _ _ _).1 (show (p.1, p.2) ∈ combinations2 l from hp)
  have m1 : p.1 ∈ l := hs.subset (by simp)
  have m2 : p.2 ∈ l := hs.subset (by simp)
  rw [h.one m1 (he _ m1), h.one m2 (he _ m2), hr.one (by omega), mul_one, hr.one (by omega)]

theorem roundedKappaAe_accurate {ρ : Rounding} {eps : ℚ}
    (ha : Accurate ρ.dec eps) (he : 0 ≤ eps) {l : List (ℤ × ℤ)} (h2 : 2 ≤ l.length) (h : Rates l) :
    |roundedKappaAe ρ l - exactKappaAe l| ≤ (1 + eps) ^ ((combinations2 l).length + 4) - 1 := by
  have hne := (combinations2_ne_nil l).2 h2
  refine roundedMean_perturbed ha he (combinations2 l) hne (fun p => rateOf p.1 * rateOf p.2)
    (fun p => ρ.dec (ρ.dec (rateOf p.1) * ρ.dec (rateOf p.2))) 3
    (fun p hp => (unit_mul (h.pair hp).1 (h.pair hp).2).1) (fun p hp => ?_)
  obtain ⟨u1, u2⟩ := h.pair hp
  have e1 := ha (rateOf p.1)
  have e2 := ha (rateOf p.2)
  rw [abs_of_nonneg u1.1] at e1
  rw [abs_of_nonneg u2.1] at e2
  have f1 : |ρ.dec (rateOf p.1) - rateOf p.1| ≤ eps :=
    le_trans e1 (mul_le_of_le_one_right he u1.2)
  have f2 : |ρ.dec (rateOf p.2) - rateOf p.2| ≤ eps :=
    le_trans e2 (mul_le_of_le_one_right he u2.2)
  have f3 : |ρ.dec (rateOf p.1)| ≤ 1 + eps := by
    rw [abs_le] at f1 ⊢
    constructor <;> linarith
  have h1 : |ρ.dec (rateOf p.1) * ρ.dec (rateOf p.2) - rateOf p.1 * rateOf p.2| ≤
      ((1 + eps) ^ 2 - 1) * 1 := by
    rw [show ρ.dec (rateOf p.1) * ρ.dec (rateOf p.2) - rateOf p.1 * rateOf p.2 =
      ρ.dec (rateOf p.1) * (ρ.dec (rateOf p.2) - rateOf p.2) +
        (ρ.dec (rateOf p.1) - rateOf p.1) * rateOf p.2 by ring]
    refine le_trans (abs_add_le _ _) ?_
    rw [abs_mul, abs_mul, abs_of_nonneg u2.1]
    have g1 := mul_le_mul f3 f2 (abs_nonneg _) (by linarith)
    have g2 := mul_le_mul f1 u2.2 u2.1 he
    nlinarith
  have h3 := accurate_step ha he (x := rateOf p.1 * rateOf p.2) (M := 1) (by
    rw [abs_of_nonneg (unit_mul u1 u2).1.1]; exact (unit_mul u1 u2).1.2) h1
  refine le_trans h3 (le_of_eq ?_)
  ring

theorem exactKappaAe_gap {l : List (ℤ × ℤ)} (h2 : 2 ≤ l.length) (h : Rates l) {P : ℚ}
    (hP : ∀ p ∈ l, (p.2 : ℚ) ≤ P) (hne : ¬∀ p ∈ l, p.1 = p.2) :
    exactKappaAe l ≤ 1 - 1 / ((combinations2 l).length * P) := by
  rw [← forall_combinations2 (fun p : ℤ × ℤ => p.1 = p.2) l h2] at hne
  push Not at hne
  obtain ⟨p, hp, hd⟩ := hne
  have hs := (mem_combinations2 _ _ _).1 (show (p.1, p.2) ∈ combinations2 l from hp)
  have m1 : p.1 ∈ l := hs.subset (by simp)
  have m2 : p.2 ∈ l := hs.subset (by simp)
  obtain ⟨u1, u2⟩ := h.pair hp
  have hg : rateOf p.1 * rateOf p.2 ≤ 1 - 1 / P := by
    by_cases hc : p.1.1 = p.1.2
    · have := rate_gap (h _ m2).2.2 (hP _ m2) (lt_of_le_of_ne (h _ m2).2.1 (hd hc))
      have : rateOf p.1 * rateOf p.2 ≤ rateOf p.2 := mul_le_of_le_one_left u2.1 u1.2
      linarith
    · have := rate_gap (h _ m1).2.2 (hP _ m1) (lt_of_le_of_ne (h _ m1).2.1 hc)
      have : rateOf p.1 * rateOf p.2 ≤ rateOf p.1 := mul_le_of_le_one_right u1.1 u2.2
      linarith
  have h1 := meanOf_gap (fun p : (ℤ × ℤ) × (ℤ × ℤ) => rateOf p.1 * rateOf p.2)
    (fun q hq => (unit_mul (h.pair hq).1 (h.pair hq).2).1.2) hp hg
  rw [div_div, mul_comm P] at h1
  exact h1

end SegEval
