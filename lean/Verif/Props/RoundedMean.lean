import Verif.Lemmas.RoundedMean
import Verif.Props.Agreement
import Verif.Props.Rounding

/-!
# C72: means and variances with rounded arithmetic
-/

namespace SegEval.Props

open SegEval Spec

/-- C72: integers that bound the values bound the rounded mean. -/
theorem C72_mean_bounds (ρ : Rounding) (limit : ℕ) (hr : Faithful ρ.dec limit)
    (values : List PyNum) (hne : values ≠ []) (hf : ∀ x ∈ values, x.NoFlt) (lo hi : ℤ)
    (hl : ∀ x ∈ values, (lo : ℚ) ≤ x.val ∧ x.val ≤ hi)
    (hlo : (values.length : ℤ) * |lo| ≤ limit) (hhi : (values.length : ℤ) * |hi| ≤ limit) :
    ∃ m : ℚ, pyMeanR ρ values = .ok (.dec m) ∧ (lo : ℚ) ≤ m ∧ m ≤ hi := by
  refine ⟨_, pyMeanR_dec ρ values hf hne, ?_⟩
  refine roundedMean_bounds hr _ (by simpa using hne) lo hi ?_ (by simpa using hlo)
    (by simpa using hhi)
  intro x hx
  obtain ⟨y, hy, rfl⟩ := List.mem_map.1 hx
  exact hl y hy

/-- C72: the rounded mean is within `n + 1` rounding errors of the exact one. -/
theorem C72_mean_error (ρ : Rounding) (eps : ℚ) (he : 0 ≤ eps) (ha : Accurate ρ.dec eps)
    (values : List PyNum) (hne : values ≠ []) (hf : ∀ x ∈ values, x.NoFlt) :
    ∃ m : ℚ, pyMeanR ρ values = .ok (.dec m) ∧
      |m - meanOf (values.map PyNum.val)| ≤
        ((1 + eps) ^ (values.length + 1) - 1) * meanOf (values.map fun x => |x.val|) := by
  refine ⟨_, pyMeanR_dec ρ values hf hne, ?_⟩
  have := roundedMean_accurate ha he (values.map PyNum.val) (by simpa using hne)
  simpa [List.map_map, Function.comp_def] using this

/-- C72: the mean of ints is the exact mean, rounded once. -/
theorem C72_mean_ints (ρ : Rounding) (limit : ℕ) (hr : Faithful ρ.dec limit) (values : List ℤ)
    (hne : values ≠ []) (hs : (values.map abs).sum ≤ limit) :
    pyMeanR ρ (values.map .int) = .ok (.dec (ρ.dec (meanOf (values.map fun n : ℤ => (n : ℚ))))) := by
  rw [pyMeanR_dec ρ _ (by simp [PyNum.NoFlt]) (by simpa using hne)]
  have h := roundedSum_ints hr values 0 (by simpa using hs)
  have hv : (values.map PyNum.int).map PyNum.val = values.map fun n : ℤ => (n : ℚ) := by
    rw [List.map_map]; rfl
  rw [hv, roundedMean, show (0 : ℚ) = ((0 : ℤ) : ℚ) by simp, h, zero_add]
  unfold meanOf
  congr 4
  simp [Int.cast_list_sum]

/-- C72: the rounded variance is never negative (so `std` never fails); of values in `[0, 1]` it is
at most 1 and close to the exact one. -/
theorem C72_variance (ρ : Rounding) (limit : ℕ) (hr : Faithful ρ.dec limit)
    (hs : Faithful ρ.sq limit) (values : List PyNum) (hne : values ≠ [])
    (hf : ∀ x ∈ values, x.NoFlt) :
    ∃ v : ℚ, pyVarR ρ values = .ok (.dec v) ∧ 0 ≤ v ∧
      ((∀ x ∈ values, 0 ≤ x.val ∧ x.val ≤ 1) → values.length ≤ limit →
        v ≤ 1 ∧ ∀ eps eps' : ℚ, 0 ≤ eps → Accurate ρ.dec eps → 0 ≤ eps' → Accurate ρ.sq eps' →
          ∀ m, pyMean values = .ok (.dec m) →
          |v - meanOf (values.map fun x => (x.val - m) ^ 2)| ≤
            ((1 + eps) ^ (values.length + 1) - 1) + 2 * ((1 + eps) ^ (values.length + 2) - 1) +
              eps') := by
  have hne' : values.map PyNum.val ≠ [] := by simpa using hne
  refine ⟨_, pyVarR_dec ρ values hf hne, roundedVar_nonneg ρ hr hs _, ?_⟩
  intro hl hn
  have hl' : ∀ x ∈ values.map PyNum.val, 0 ≤ x ∧ x ≤ 1 := by
    intro x hx
    obtain ⟨y, hy, rfl⟩ := List.mem_map.1 hx
    exact hl y hy
  refine ⟨(roundedVar_bounds ρ hr hs _ hne' hl' (by simpa using hn)).2, ?_⟩
  intro eps eps' he ha he' ha' m hm
  rw [pyMean_dec values hf hne, Except.ok.injEq, PyNum.dec.injEq] at hm
  subst hm
  have := roundedVar_accurate ρ hr hs ha he ha' he' _ hne' hl' (by simpa using hn)
  simpa [varOf, List.map_map, Function.comp_def] using this

/-- C72 in the default context, for up to `10 ^ 26` values in `[0, 1]`: mean and variance stay in
`[0, 1]`, are off by at most `(n + 1) / 10 ^ 27` and `(3 n + 6) / 10 ^ 27`. -/
theorem C72_default_context (values : List PyNum) (hne : values ≠ []) (hf : ∀ x ∈ values, x.NoFlt)
    (hl : ∀ x ∈ values, 0 ≤ x.val ∧ x.val ≤ 1) (hn : values.length ≤ 10 ^ 26) :
    ∃ m v m' v' : ℚ, pyMean values = .ok (.dec m) ∧ pyVar values = .ok (.dec v) ∧
      pyMeanR .cpython values = .ok (.dec m') ∧ pyVarR .cpython values = .ok (.dec v') ∧
      0 ≤ m' ∧ m' ≤ 1 ∧ 0 ≤ v' ∧ v' ≤ 1 ∧
      |m' - m| ≤ (values.length + 1) / 10 ^ 27 ∧ |v' - v| ≤ (3 * values.length + 6) / 10 ^ 27 := by
  have hq : (values.length : ℚ) ≤ 10 ^ 26 := by exact_mod_cast hn
  obtain ⟨m', hm', hm0, hm1⟩ := C72_mean_bounds .cpython _ cpython_faithful values hne hf 0 1
    (by simpa using hl) (by simp) (by simp; exact_mod_cast le_trans hn (by norm_num))
  obtain ⟨m'', hm'', herr⟩ := C72_mean_error .cpython _ (by norm_num) cpython_accurate values hne hf
  obtain rfl : m' = m'' := by simpa [hm'] using hm''
  obtain ⟨v', hv', hv0, hv⟩ := C72_variance .cpython _ cpython_faithful cpython_sq_faithful values hne
    hf
  obtain ⟨hv1, hverr⟩ := hv hl (le_trans hn (by norm_num))
  have hv2 := hverr _ _ (by norm_num) cpython_accurate (by norm_num) cpython_sq_accurate _
    (pyMean_dec values hf hne)
  refine ⟨_, _, m', v', pyMean_dec values hf hne, pyVar_dec values hf hne, hm', hv', by simpa using hm0,
    by simpa using hm1, hv0, hv1, ?_, ?_⟩
  · have h1 := compound_le (eps := 1 / (2 * 10 ^ 27)) (by norm_num) (values.length + 1)
      (by push_cast; linarith)
    have hb := meanOf_bounds (values.map fun x => |x.val|) (by simpa using hne) 0 1
      (by intro x hx; obtain ⟨y, hy, rfl⟩ := List.mem_map.1 hx; exact abs_nonneg _)
      (by
        intro x hx; obtain ⟨y, hy, rfl⟩ := List.mem_map.1 hx
        rw [abs_of_nonneg (hl y hy).1]; exact (hl y hy).2)
    have h0 : (1 : ℚ) ≤ (1 + 1 / (2 * 10 ^ 27)) ^ (values.length + 1) :=
      one_le_pow₀ (by norm_num)
    refine le_trans herr (le_trans (mul_le_of_le_one_right (by linarith) hb.2) ?_)
    refine le_trans h1 (le_of_eq ?_)
    push_cast; ring
  · have h1 := compound_le (eps := 1 / (2 * 10 ^ 27)) (by norm_num) (values.length + 1)
      (by push_cast; linarith)
    have h2 := compound_le (eps := 1 / (2 * 10 ^ 27)) (by norm_num) (values.length + 2)
      (by push_cast; linarith)
    have h3 : varOf (values.map PyNum.val) = meanOf (values.map fun x =>
        (x.val - meanOf (values.map PyNum.val)) ^ 2) := by
      simp [varOf, List.map_map, Function.comp_def]
    rw [h3]
    refine le_trans hv2 ?_
    push_cast at h1 h2
    linarith

/-- C72: visiting the values in another order changes the rounded mean by at most
`2 (n + 1) / 10 ^ 27`. -/
theorem C72_order_bound (values values' : List PyNum) (hp : values.Perm values') (hne : values ≠ [])
    (hf : ∀ x ∈ values, x.NoFlt) (hl : ∀ x ∈ values, 0 ≤ x.val ∧ x.val ≤ 1)
    (hn : values.length ≤ 10 ^ 26) :
    ∃ m m' : ℚ, pyMeanR .cpython values = .ok (.dec m) ∧ pyMeanR .cpython values' = .ok (.dec m') ∧
      |m - m'| ≤ 2 * (values.length + 1) / 10 ^ 27 := by
  have hne' : values' ≠ [] := by rintro rfl; exact hne hp.eq_nil
  obtain ⟨m, _, m1, _, h, -, h1, -, -, -, -, -, h2, -⟩ := C72_default_context values hne hf hl hn
  obtain ⟨k, _, k1, _, h', -, h1', -, -, -, -, -, h2', -⟩ := C72_default_context values' hne'
    (fun x hx => hf x (hp.mem_iff.2 hx)) (fun x hx => hl x (hp.mem_iff.2 hx))
    (by rw [← hp.length_eq]; exact hn)
  refine ⟨m1, k1, h1, h1', ?_⟩
  rw [pyMean_dec values hf hne, Except.ok.injEq, PyNum.dec.injEq] at h
  rw [pyMean_dec values' (fun x hx => hf x (hp.mem_iff.2 hx)) hne', Except.ok.injEq,
    PyNum.dec.injEq, ← meanOf_perm (hp.map PyNum.val)] at h'
  subst h
  rw [← h'] at h2'
  rw [← hp.length_eq] at h2'
  have := abs_sub_le m1 (meanOf (values.map PyNum.val)) k1
  rw [abs_sub_comm (meanOf _) k1] at this
  refine le_trans this ?_
  linarith

/-- C72 at the values 2/3, 2/3 and 1/3 as the package computes them. -/
example : pyMeanR .cpython [.dec (6666666666666666666666666667 / 10 ^ 28),
      .dec (6666666666666666666666666667 / 10 ^ 28), .dec (3333333333333333333333333333 / 10 ^ 28)] =
    .ok (.dec (5555555555555555555555555553 / 10 ^ 28)) := by decide +kernel

/-- C72 at ints. -/
example : pyMeanR .cpython [.int 2, .int 3, .int 5] =
    .ok (.dec (3333333333333333333333333333 / 10 ^ 27)) := by decide +kernel

/-- C72 refuted for bounds that are not integers: the mean of two equal values is smaller than the
values, and their variance is not zero. -/
theorem C72_equal_values : ∃ x m v : ℚ, pyMeanR .cpython [.dec x, .dec x] = .ok (.dec m) ∧ m < x ∧
    pyVarR .cpython [.dec x, .dec x] = .ok (.dec v) ∧ 0 < v :=
  ⟨6666666666666666666666666667 / 10 ^ 28, 6666666666666666666666666665 / 10 ^ 28, 4 / 10 ^ 56,
    by decide +kernel, by norm_num, by decide +kernel, by norm_num⟩

/-- The boundary similarity of two segmentations as a number. -/
def similarityValue (a b : Seg) : Py PyNum :=
  match boundarySimilarityR .cpython .ascending { weight := .defaultR .cpython } a b with
  | .ok (.num x) => .ok x
  | .ok _ => .error .typeError
  | .error e => .error e

/-- The mean over all pairs of coders of a dataset. -/
def meanSimilarity (o : ClassOrder Name) (items : Items) : Py PyNum :=
  match computePairwiseValues o similarityValue false items none with
  | .error e => .error e
  | .ok d => pyMeanR .cpython (d.map Prod.snd)

/-- Three items, two coders each. -/
def exThree : Items :=
  [("x".toList, [("a".toList, mass [1, 1, 1, 1]), ("b".toList, mass [1, 1, 2])]),
   ("y".toList, [("a".toList, mass [1, 1, 1, 1]), ("b".toList, mass [1, 1, 2])]),
   ("z".toList, [("a".toList, mass [1, 1, 1, 1]), ("b".toList, mass [1, 3])])]

/-- C72 refuted for the order: the mean similarity of a dataset depends, in its last digit, on the
order in which the set of items is visited, i.e. on string hashing. -/
theorem C72_order_dependent :
    ∃ x y : ℚ, meanSimilarity ascN exThree = .ok (.dec x) ∧
      meanSimilarity descN exThree = .ok (.dec y) ∧ x ≠ y :=
  ⟨5555555555555555555555555553 / 10 ^ 28, 5555555555555555555555555557 / 10 ^ 28,
    by decide +kernel, by decide +kernel, by norm_num⟩

end SegEval.Props
