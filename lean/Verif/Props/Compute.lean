import Verif.Lemmas.Summary
import Verif.Props.Similarity

/-!
# C41–C45: pairwise comparison, argument handling and summaries
-/

namespace SegEval.Props

open SegEval Spec

/-- An iteration order of name sets, for the examples. -/
def ascN : ClassOrder Name := ClassOrder.sorted (fun a b : Name => a ≤ b)

/-- A segmentation by masses. -/
def mass (l : List ℤ) : Seg := .ints true (l.map (fun n => ⟨n, 0⟩))

/-- Three coders of one item, two of another. -/
def exItems : Items :=
  [("x".toList, [("a".toList, mass [2, 3]), ("b".toList, mass [5]), ("c".toList, mass [1, 4])]),
   ("y".toList, [("b".toList, mass [7]), ("a".toList, mass [3, 4])])]

/-- A toy metric that tells its arguments apart. -/
def lens (a b : Seg) : Py (ℕ × ℕ) :=
  match a, b with
  | .ints _ x, .ints _ y => .ok (x.length, y.length)
  | _, _ => .error .typeError

/-- C41: the result of comparing within a dataset has no key twice, and its entries are exactly:
for each item and coders `m` before `n` of it (both ways round when permuted) the metric of their
segmentations, under the key `item,m,n`. -/
theorem C41_entries {R : Type} (o : ClassOrder Name) (f : Seg → Seg → Py R) (permuted : Bool)
    (a : Items) (hc : NoCommas a) (out : List (Name × R))
    (h : computePairwiseValues o f permuted a none = .ok out) :
    (out.map Prod.fst).Nodup ∧ ∀ key v, (key, v) ∈ out ↔
      ∃ label m n sm sn, Coded a label m sm ∧ Coded a label n sn ∧
        (Before a label m n ∨ (permuted = true ∧ Before a label n m)) ∧
        key = keyOf label m n ∧ f sm sn = .ok v := by
  obtain ⟨h1, h2⟩ := pairwise_one o f permuted a hc h
  refine ⟨h1, fun key v => ?_⟩
  rw [mem_iff_dictGet h1, h2]
  rfl

/-- C41: every such pair is in the result (none is skipped), and the number of entries is the number
of pairs: `n` choose 2 for an item with `n` coders, twice that when permuted. -/
theorem C41_complete {R : Type} (o : ClassOrder Name) (f : Seg → Seg → Py R) (permuted : Bool)
    (a : Items) (hd : IsDict a) (hc : NoCommas a) (out : List (Name × R))
    (h : computePairwiseValues o f permuted a none = .ok out) :
    (∀ label m n sm sn, Coded a label m sm → Coded a label n sn →
      (Before a label m n ∨ (permuted = true ∧ Before a label n m)) →
        ∃ v, f sm sn = .ok v ∧ (keyOf label m n, v) ∈ out) ∧
    out.length = (a.map (fun e => (if permuted then 2 else 1) * e.2.length.choose 2)).sum := by
  refine ⟨fun label m n sm sn hm hn hb => ?_, pairwise_one_length o f permuted a hd hc h⟩
  obtain ⟨v, hv⟩ := pairwise_one_ok o f permuted a h hm hn hb
  exact ⟨v, hv, (C41_entries o f permuted a hc out h).2 _ _ |>.2
    ⟨label, m, n, sm, sn, hm, hn, hb, rfl, hv⟩⟩

/-- C41: the comparison raises only what the metric raises on one of the pairs. -/
theorem C41_raises {R : Type} (o : ClassOrder Name) (f : Seg → Seg → Py R) (permuted : Bool)
    (a : Items) (e : PyErr) (h : computePairwiseValues o f permuted a none = .error e) :
    ∃ label m n sm sn, Coded a label m sm ∧ Coded a label n sn ∧
      (Before a label m n ∨ (permuted = true ∧ Before a label n m)) ∧ f sm sn = .error e :=
  pairwise_one_error o f permuted a h

/-- The examples' dataset meets the hypotheses. -/
theorem exItems_ok : IsDict exItems ∧ NoCommas exItems := by
  refine ⟨⟨by decide, by decide⟩, ?_⟩
  rintro label m s ⟨c, h1, h2⟩
  have h1 := dictGet_mem h1
  have h2 := dictGet_mem h2
  simp only [exItems, List.mem_cons, Prod.mk.injEq, List.not_mem_nil, or_false] at h1
  rcases h1 with ⟨_, rfl⟩ | ⟨_, rfl⟩ <;>
    simp only [List.mem_cons, Prod.mk.injEq, List.not_mem_nil, or_false] at h2 <;>
    rcases h2 with ⟨rfl, _⟩ | ⟨rfl, _⟩ | ⟨rfl, _⟩ <;> decide

/-- Three pairs of the first item and one of the second. -/
example : computePairwiseValues ascN lens false exItems none =
    .ok [("x,a,b".toList, (2, 1)), ("x,a,c".toList, (2, 2)), ("x,b,c".toList, (1, 2)),
      ("y,b,a".toList, (1, 2))] := by decide +kernel

/-- Permuted: both ways round. -/
example : (computePairwiseValues ascN lens true exItems none).map List.length = .ok 8 := by
  decide +kernel

/-- An error of the metric goes through. -/
example : computePairwiseValues ascN (fun _ _ => (.error .valueError : Py ℕ)) true exItems none =
    .error .valueError := by decide +kernel

/-- C42: comparing two datasets gives exactly one entry per item of both and pair (coder in the
first, coder in the second), with the metric of their segmentations; every such pair is there. -/
theorem C42_entries {R : Type} (o : ClassOrder Name) (f : Seg → Seg → Py R) (permuted : Bool)
    (a b : Items) (ha : NoCommas a) (hb : NoCommas b) (out : List (Name × R))
    (h : computePairwiseValues o f permuted a (some b) = .ok out) :
    (out.map Prod.fst).Nodup ∧
    (∀ key v, (key, v) ∈ out ↔ ∃ label m n sm sn, Coded a label m sm ∧ Coded b label n sn ∧
      key = keyOf label m n ∧ f sm sn = .ok v) ∧
    ∀ label m n sm sn, Coded a label m sm → Coded b label n sn →
      ∃ v, f sm sn = .ok v ∧ (keyOf label m n, v) ∈ out := by
  obtain ⟨h1, h2⟩ := pairwise_two o f permuted a b ha hb h
  have h3 : ∀ key v, (key, v) ∈ out ↔ ∃ label m n sm sn, Coded a label m sm ∧ Coded b label n sn ∧
      key = keyOf label m n ∧ f sm sn = .ok v := by
    intro key v
    rw [mem_iff_dictGet h1, h2]
    rfl
  refine ⟨h1, h3, fun label m n sm sn hm hn => ?_⟩
  obtain ⟨v, hv⟩ := pairwise_two_ok o f permuted a b h hm hn
  exact ⟨v, hv, (h3 _ _).2 ⟨label, m, n, sm, sn, hm, hn, rfl, hv⟩⟩

/-- C42: errors are the metric's. -/
theorem C42_raises {R : Type} (o : ClassOrder Name) (f : Seg → Seg → Py R) (permuted : Bool)
    (a b : Items) (e : PyErr) (h : computePairwiseValues o f permuted a (some b) = .error e) :
    ∃ label m n sm sn, Coded a label m sm ∧ Coded b label n sn ∧ f sm sn = .error e :=
  pairwise_two_error o f permuted a b h

/-- A second dataset sharing the item `y` only. -/
def exOther : Items :=
  [("z".toList, [("a".toList, mass [1])]),
   ("y".toList, [("a".toList, mass [1, 2, 4]), ("d".toList, mass [7])])]

example : NoCommas exOther := by
  rintro label m s ⟨c, h1, h2⟩
  have h1 := dictGet_mem h1
  have h2 := dictGet_mem h2
  simp only [exOther, List.mem_cons, Prod.mk.injEq, List.not_mem_nil, or_false] at h1
  rcases h1 with ⟨_, rfl⟩ | ⟨_, rfl⟩ <;>
    simp only [List.mem_cons, Prod.mk.injEq, List.not_mem_nil, or_false] at h2
  · rw [h2.1]; decide
  · rcases h2 with ⟨rfl, _⟩ | ⟨rfl, _⟩ <;> decide

example : computePairwiseValues ascN lens false exItems (some exOther) =
    .ok [("y,b,a".toList, (1, 3)), ("y,b,d".toList, (1, 1)), ("y,a,a".toList, (2, 3)),
      ("y,a,d".toList, (2, 1))] := by decide +kernel

/-- C43: keys name one triple, as long as the coder names have no comma (the item may).

Missing: coder names with commas, for which the claim is false (`C43_refuted`). -/
theorem C43_keys_partial (l l' m m' n n' : Name) (hm : ',' ∉ m) (hm' : ',' ∉ m') (hn : ',' ∉ n)
    (hn' : ',' ∉ n') (h : entryKey l m n = entryKey l' m' n') : l = l' ∧ m = m' ∧ n = n' := by
  rw [entryKey_eq, entryKey_eq] at h
  exact keyOf_inj hm hm' hn hn' h

/-- C43: exactly the triples without any comma have a key no other triple can have. -/
theorem C43_exact (l m n : Name) :
    (∃ l' m' n', (l', m', n') ≠ (l, m, n) ∧ entryKey l' m' n' = entryKey l m n) ↔
      ',' ∈ l ∨ ',' ∈ m ∨ ',' ∈ n := by
  constructor
  · rintro ⟨l', m', n', hne, h⟩
    by_contra hc
    push Not at hc
    obtain ⟨hl, hm, hn⟩ := hc
    have hcount := congrArg (List.count ',') h
    simp only [entryKey, joinComma, List.count_append, List.count_cons_self,
      List.count_eq_zero_of_not_mem hl, List.count_eq_zero_of_not_mem hm,
      List.count_eq_zero_of_not_mem hn] at hcount
    have hm' : ',' ∉ m' := List.count_eq_zero.1 (by omega)
    have hn' : ',' ∉ n' := List.count_eq_zero.1 (by omega)
    obtain ⟨rfl, rfl, rfl⟩ := C43_keys_partial _ _ _ _ _ _ hm' hm hn' hn h
    exact hne rfl
  · rintro (h | h | h)
    · obtain ⟨x, y, rfl⟩ := List.append_of_mem h
      refine ⟨x, y, m ++ ',' :: n, fun he => ?_, by simp [entryKey, joinComma]⟩
      have := congrArg (fun t => t.1.length) he
      simp at this
    · obtain ⟨x, y, rfl⟩ := List.append_of_mem h
      refine ⟨l ++ ',' :: x, y, n, fun he => ?_, by simp [entryKey, joinComma]⟩
      have := congrArg (fun t => t.1.length) he
      simp at this
    · obtain ⟨x, y, rfl⟩ := List.append_of_mem h
      refine ⟨l ++ ',' :: m, x, y, fun he => ?_, by simp [entryKey, joinComma]⟩
      have := congrArg (fun t => t.1.length) he
      simp at this

/-- Items with commas. -/
example : entryKey "p,q".toList "a".toList "b".toList = "p,q,a,b".toList := by decide

/-- C43 fails for coder names with commas: a dataset whose comparison has two pairs under one key,
so that one of six is lost. -/
theorem C43_refuted : ∃ a : Items, IsDict a ∧
    (a.map (fun e => e.2.length.choose 2)).sum = 6 ∧
    (computePairwiseValues ascN lens false a none).map List.length = .ok 5 := by
  refine ⟨[("x".toList, [("a".toList, mass [2, 3]), ("b,c".toList, mass [5]),
    ("a,b".toList, mass [5]), ("c".toList, mass [1, 4])])], ⟨by decide, by decide⟩, ?_, ?_⟩
  · decide
  · decide +kernel

/-- C44: two non-empty segmentations (a bare integer standing for one segment), two non-empty
datasets of one format, or one non-empty dataset, positionally or by keyword, are answered by the
metric of the two segmentations or by the pairwise comparison. -/
theorem C44_accepts {R : Type} (o : ClassOrder Name) (f : BoundaryFormat → Seg → Seg → Py R)
    (fmt : BoundaryFormat) (permuted : Bool) (c : CallArgs) (q : Request) (h : Asks c q) :
    fncMetric o f fmt permuted c =
      reply f fmt (fun g a b => computePairwiseValues o g permuted a b) q :=
  call_asks o f fmt permuted c q h

/-- C44: no other combination yields a number: a call that returns either asked for one of the
three or returns the empty dict.  A dict in the place of a segmentation is left out here; `C44_any_else` has it. -/
theorem C44_nothing_else {R : Type} (o : ClassOrder Name)
    (f : BoundaryFormat → Seg → Seg → Py R) (fmt : BoundaryFormat) (permuted : Bool) (c : CallArgs)
    (out : CallOut R) (h : fncMetric o f fmt permuted c = .ok out) :
    out = .pairs [] ∨ ∃ q, Asks c q := call_ok o f fmt permuted c h

/-- C44: calls with arguments of the documented kinds that ask for none of the three raise
`SegmentationMetricError`.

Missing: other calls, which can raise something else (`C44_not_dataset`, `C44_leftover`) or, with a
dataset beside a segmentation, give a number (`C44_mixed_number`). -/
theorem C44_rejects_partial {R : Type} (o : ClassOrder Name)
    (f : BoundaryFormat → Seg → Seg → Py R) (fmt : BoundaryFormat) (permuted : Bool) (c : CallArgs)
    (hc : Documented c) (hn : ∀ q, ¬ Asks c q) :
    fncMetric o f fmt permuted c = .error .segmentationMetricError :=
  call_documented o f fmt permuted c hc hn

/-- C44 fails: a single non-empty segmentation or dict raises `AttributeError`. -/
theorem C44_not_dataset {R : Type} (o : ClassOrder Name) (f : BoundaryFormat → Seg → Seg → Py R)
    (fmt : BoundaryFormat) (permuted : Bool) (x : ArgVal) (hx : x.truthy = true)
    (hd : ∀ d, x ≠ .dataset d) (c : CallArgs) (hc : One c x) :
    fncMetric o f fmt permuted c = .error .attributeError := by
  unfold fncMetric
  rw [parse_one hc]
  simp only
  rw [if_pos hx]

/-- C44 fails: a superfluous or unknown keyword raises `TypeError`. -/
theorem C44_leftover {R : Type} (o : ClassOrder Name) (f : BoundaryFormat → Seg → Seg → Py R)
    (fmt : BoundaryFormat) (permuted : Bool) (a b : Seg) (ha : a.truthy = true)
    (hb : b.truthy = true) (x : ArgVal) :
    fncMetric o f fmt permuted { args := [.seg a, .seg b], dataset := some x } =
      .error .typeError ∧
    fncMetric o f fmt permuted { args := [.seg a, .seg b], unknown := true } = .error .typeError := by
  unfold fncMetric
  simp [parseArgs, ArgVal.wrapInt, ArgVal.truthy, ha, hb, rejectExtra]

/-- One segmentation alone. -/
example : fncMetric ascN (fun _ => lens) .mass false { args := [.seg (mass [2, 3])] } =
    .error .attributeError :=
  C44_not_dataset _ _ _ _ (.seg (mass [2, 3])) (by decide) (by simp) _ (.inl rfl)

/-- An integer and a segmentation, by keyword. -/
example : Asks { hypothesis := some (.int 5), reference := some (.seg (mass [2, 3])) }
    (.segmentations (.ints true [⟨5, 0⟩]) (mass [2, 3])) :=
  ⟨by decide, by decide, _, _, .int 5, .seg _, .inr rfl⟩

/-- One dataset. -/
example : Asks { args := [.dataset ⟨exItems, ∅, .mass⟩] } (.dataset ⟨exItems, ∅, .mass⟩) :=
  ⟨by decide, .inl rfl⟩

/-- A documented call asking for nothing: an empty segmentation. -/
example : Documented { args := [.seg (mass []), .seg (mass [2])] } ∧
    ∀ q, ¬ Asks { args := [.seg (mass []), .seg (mass [2])] } q := by
  refine ⟨.positional _ (by decide) (by simp) (.inl (by simp)), ?_⟩
  intro q h
  cases q with
  | segmentations a b =>
    obtain ⟨h1, _, _, _, h2, _, h | h⟩ := h
    · cases h; cases h2; simp [mass, Seg.truthy] at h1
    · cases h
  | datasets a b =>
    obtain ⟨_, _, _, h | h⟩ := h <;> cases h
  | dataset d =>
    obtain ⟨_, h | h⟩ := h <;> cases h

/-- C45: the summary of any non-empty collection of values (none a float): the mean lies between
any bounds of the values, the variance is non-negative, the mean of the squares minus the square of
the mean and zero iff the values agree, the deviation squares to the variance, the error squared
times the count is the variance. -/
theorem C45_summary (values : List PyNum) (hne : values ≠ []) (hf : ∀ x ∈ values, x.NoFlt) :
    ∃ s, summarize values = .ok s ∧ s.count = values.length ∧
      (∃ mean var : ℚ, s.mean = mean ∧ s.var = var ∧
        mean = meanOf (values.map PyNum.val) ∧
        var = meanOf (values.map (fun x => x.val ^ 2)) - mean ^ 2) ∧
      (∀ lo hi : ℚ, (∀ x ∈ values, lo ≤ x.val ∧ x.val ≤ hi) → lo ≤ s.mean ∧ s.mean ≤ hi) ∧
      0 ≤ s.var ∧ (s.var = 0 ↔ ∀ x ∈ values, ∀ y ∈ values, x.val = y.val) ∧
      0 ≤ s.std ∧ s.std ^ 2 = s.var ∧ 0 ≤ s.stderr ∧ s.stderr ^ 2 * s.count = s.var := by
  have hne' : values.map PyNum.val ≠ [] := by simpa using hne
  have hpos : (0 : ℝ) < values.length := by exact_mod_cast List.length_pos_iff.2 hne
  have hv : (0 : ℝ) ≤ (varOf (values.map PyNum.val) : ℚ) := by exact_mod_cast varOf_nonneg _
  refine ⟨_, by unfold summarize; rw [pyMean_dec values hf hne, pyVar_dec values hf hne], rfl,
    ⟨_, _, rfl, rfl, rfl, ?_⟩, ?_, hv, ?_, Real.sqrt_nonneg _, Real.sq_sqrt hv,
    div_nonneg (Real.sqrt_nonneg _) (Real.sqrt_nonneg _), ?_⟩
  · simp only [PyNum.val]
    rw [varOf_eq _ hne', List.map_map]
    rfl
  · intro lo hi h
    have := meanOf_bounds (values.map PyNum.val) hne' lo hi
      (by intro x hx; obtain ⟨y, hy, rfl⟩ := List.mem_map.1 hx; exact (h y hy).1)
      (by intro x hx; obtain ⟨y, hy, rfl⟩ := List.mem_map.1 hx; exact (h y hy).2)
    exact ⟨Rat.cast_le.2 this.1, Rat.cast_le.2 this.2⟩
  · refine Iff.trans (Rat.cast_eq_zero (p := varOf (values.map PyNum.val))) ?_
    rw [varOf_zero_iff _ hne']
    simp
  · simp only [PyNum.val]
    rw [div_pow, Real.sq_sqrt hv, Real.sq_sqrt hpos.le]
    field_simp

/-- C45: an empty collection raises. -/
theorem C45_empty : summarize [] = .error .decimalInvalidOperation := by
  unfold summarize
  have h1 : pyMean [] = .ok (.int 0) := by decide +kernel
  have h2 : pyVar [] = .error .decimalInvalidOperation := by decide +kernel
  rw [h1, h2]

/-- C45 at values that differ. -/
example : pyMean [.dec 1, .int 0, .dec (1 / 2)] = .ok (.dec (1 / 2)) ∧
    pyVar [.dec 1, .int 0, .dec (1 / 2)] = .ok (.dec (1 / 6)) := by decide +kernel

end SegEval.Props
