import Verif.Lemmas.MLBed
import Verif.Props.Similarity
import Verif.Props.Edit

/-!
# C33–C40: confusion matrices

`history` runs any sequence of operations on a new matrix; `Reachable` is any matrix so made.  A
query that raises ends the history; what it did before raising is a sequence of cell reads and
`classes()` calls, which are operations of their own, so the matrices a program can go on with after
catching the exception are reachable too (proved as `C111_reachable`).
-/

namespace SegEval.Props

open SegEval Spec

/-- An enumeration order for the examples. -/
def ascZ : ClassOrder ℤ := ClassOrder.sorted (· ≤ ·)

/-- The operations making a 2-class example: 5 and 3 on the diagonal, 1 and 2 off it. -/
def exOps : List (MOp ℤ) :=
  [.write 1 1 (.int 5), .write 1 2 (.int 1), .incr 2 1 (.int 2), .ask (.precision none .micro),
    .incr 2 2 (.int 3), .classes, .read 2 1]

/-- C33: without bare row lookups (`m[p]` not followed by `[a]`), `classes()` is exactly the labels
of the matrix, which are exactly the labels named by the operations.

Missing: histories with bare row lookups, for which the claim is false (`C33_bare_row`). -/
theorem C33_classes_partial {κ : Type} [DecidableEq κ] (o : ClassOrder κ) (k : ℕ)
    (ops : List (MOp κ)) (hops : ∀ p, .look p ∉ ops) (m : CM κ) (h : history o k {} ops = .ok m)
    (l : κ) : (l ∈ m.classes.1 ↔ HasLabel m l) ∧ (HasLabel m l ↔ ∃ op ∈ ops, op.names l) := by
  refine ⟨classes_mem_of_fresh (history_fresh o k ops {} m sound_empty fresh_empty hops h) l, ?_⟩
  rw [history_labels o k ops {} m sound_empty h]
  constructor
  · rintro (⟨r, hr, _⟩ | h)
    · simp at hr
    · exact h
  · exact .inr

example : (∀ p, MOp.look p ∉ exOps) ∧
    (history ascZ 0 {} exOps).map (fun m => m.classes.1) = .ok {1, 2} := by
  refine ⟨fun p hp => ?_, by decide +kernel⟩
  simp [exOps] at hp

/-- C33 in general: `classes()` has only labels of the matrix, and all labels except possibly those
of empty rows. -/
theorem C33_classes_bounds {κ : Type} [DecidableEq κ] (m : CM κ) (h : Reachable m) (l : κ) :
    (l ∈ m.classes.1 → HasLabel m l) ∧ (InUse m l → l ∈ m.classes.1) :=
  ⟨(classes_mem_of_sound (reachable_sound h)).2 l, (classes_mem_of_sound (reachable_sound h)).1 l⟩

/-- C33 is false: a bare row lookup makes a row that `classes()` does not list, until a cell is
written. -/
theorem C33_bare_row : ∃ (ops : List (MOp ℤ)) (m : CM ℤ), history ascZ 0 {} ops = .ok m ∧
    HasLabel m 7 ∧ 7 ∉ m.classes.1 ∧ 7 ∈ (m.write 1 1 (.int 1)).classes.1 := by
  refine ⟨[.write 1 1 (.int 5), .classes, .look 7], _, rfl, ⟨(7, []), ?_, .inl rfl⟩, ?_, ?_⟩ <;>
    decide +kernel

/-- C34: after any history a cell holds the last value written plus the later increments, and 0
before that; reads, `classes()` and queries have no effect on any cell. -/
theorem C34_cells {κ : Type} [DecidableEq κ] (o : ClassOrder κ) (k : ℕ) (ops : List (MOp κ))
    (m : CM κ) (h : history o k {} ops = .ok m) (p a : κ) :
    cell m p a = ops.foldl effect (fun _ _ => .int 0) p a := by
  have key : ∀ (ops : List (MOp κ)) (k : ℕ) (m0 : CM κ), Sound m0 →
      history o k m0 ops = .ok m → ∀ p a, cell m p a = ops.foldl effect (cell m0) p a := by
    intro ops
    induction ops with
    | nil => intro k m0 _ h p a; cases h; rfl
    | cons op ops ih =>
      intro k m0 hs h p a
      rw [history] at h
      cases h1 : op.run o [k] m0 with
      | error e => rw [h1] at h; cases h
      | ok m1 =>
        rw [h1] at h
        obtain ⟨h2, h3⟩ := step_ok o [k] op m0 hs h1
        rw [ih _ _ h2 h p a, List.foldl_cons]
        have : cell m1 = effect (cell m0) op := by
          funext p a
          exact h3 p a
        rw [this]
  have h0 : cell ({} : CM κ) = fun _ _ => .int 0 := by
    funext p a; rw [cell_eq]; rfl
  rw [← h0]
  exact key ops k {} sound_empty h p a

example : (history ascZ 0 {} exOps).map (fun m => (cell m 1 1, cell m 2 1, cell m 2 2, cell m 3 3)) =
    .ok (.int 5, .int 2, .int 3, .int 0) := by decide +kernel

/-- C35: micro-averaged precision and recall are both the diagonal over the total. -/
theorem C35_micro {κ : Type} [DecidableEq κ] (o o' : ClassOrder κ) (site site' : List ℕ) (m : CM κ)
    (h : Reachable m) (hf : NoFloats m) (hn : NonNeg m) :
    answer (precision o site none .micro m) =
      some (if diagonal m = 0 then 0 else diagonal m / grandTotal m) ∧
    answer (recall o' site' none .micro m) =
      some (if diagonal m = 0 then 0 else diagonal m / grandTotal m) := by
  have hs := reachable_sound h
  exact ⟨(value_micro (precision_spec o) site m hs hf).1.trans (micro_ratio hn _ (sum_row_eq m)),
    (value_micro (recall_spec o') site' m hs hf).1.trans (micro_ratio hn _ (sum_col_eq m))⟩

/-- The matrix made by `exOps`. -/
def exM : CM ℤ := match history ascZ 0 {} exOps with | .ok m => m | .error _ => {}

theorem exM_reachable : Reachable exM := ⟨ascZ, 0, exOps, by decide +kernel⟩

theorem exM_rows : exM.rows = [(1, [(1, .int 5), (2, .int 1)]), (2, [(1, .int 2), (2, .int 3)])] := by
  decide +kernel

theorem exM_ints : ∀ p a, ∃ n : ℤ, 0 ≤ n ∧ cell exM p a = .int n := by
  refine cells_of_rows (fun x => ∃ n : ℤ, 0 ≤ n ∧ x = .int n) ⟨0, le_refl _, rfl⟩ exM ?_
  rw [exM_rows]
  intro r hr c hc
  simp only [List.mem_cons, List.not_mem_nil, or_false] at hr
  rcases hr with rfl | rfl <;> simp only [List.mem_cons, List.not_mem_nil, or_false] at hc <;>
    rcases hc with rfl | rfl <;> exact ⟨_, by norm_num, rfl⟩

theorem exM_good : NoFloats exM ∧ NonNeg exM := by
  constructor
  · intro p a
    obtain ⟨n, _, h⟩ := exM_ints p a
    rw [h]; trivial
  · intro p a
    obtain ⟨n, h0, h⟩ := exM_ints p a
    rw [h]; show (0 : ℚ) ≤ (n : ℚ); exact_mod_cast h0

example : answer (precision ascZ [] none .micro exM) = some (8 / 11) ∧
    answer (recall ascZ [] none .micro exM) = some (8 / 11) := by decide +kernel

/-- C36: whatever a query returns lies in `[0, 1]`, for every class, average and beta. -/
theorem C36_range {κ : Type} [DecidableEq κ] (o : ClassOrder κ) (site : List ℕ) (m : CM κ)
    (h : Reachable m) (hf : NoFloats m) (hn : NonNeg m) (q : Query κ) (x : ℚ)
    (hx : answer (q.run o site m) = some x) : 0 ≤ x ∧ x ≤ 1 := by
  have hs := reachable_sound h
  have key : ∀ {fnc : ClassFn κ} {val parts}, ClassSpec fnc val parts →
      (∀ c x, val m c = some x → 0 ≤ x ∧ x ≤ 1) →
      (∀ c n d, parts m c = some (n, d) → 0 ≤ n ∧ n ≤ d) → ∀ (c : Option κ) v,
      answer (valueMicroMacro o fnc site c v m) = some x → 0 ≤ x ∧ x ≤ 1 := by
    intro fnc val parts hfn hv hp c v hx
    cases c with
    | some c => rw [(value_class hfn site c v m hs hf).1] at hx; exact hv c x hx
    | none =>
      match v with
      | .micro =>
        rw [(value_micro hfn site m hs hf).1] at hx
        exact microOf_range (m := m) (hfn.off m) hp hx
      | .macro =>
        rw [(value_macro hfn site m hs hf).1] at hx
        exact macroOf_range hv hx
      | .other => cases hx
  cases q with
  | precision c v =>
    refine key (precision_spec o) (fun c x h => precisionOf_range hn h) ?_ c v hx
    intro c n d h
    simp only [Option.some.injEq, Prod.mk.injEq] at h
    obtain ⟨rfl, rfl⟩ := h
    rw [rowTotal_split]
    exact ⟨hn c c, le_add_of_nonneg_right (falsePos_nonneg hn c)⟩
  | recall c v =>
    refine key (recall_spec o) (fun c x h => recallOf_range hn h) ?_ c v hx
    intro c n d h
    simp only [Option.some.injEq, Prod.mk.injEq] at h
    obtain ⟨rfl, rfl⟩ := h
    rw [colTotal_split]
    exact ⟨hn c c, le_add_of_nonneg_right (falseNeg_nonneg hn c)⟩
  | fmeasure c b v =>
    refine key (fmeasure_spec o b) (fun c x h => fOf_range hn h) ?_ c v hx
    intro c n d h
    unfold fParts at h
    cases hp : precisionOf m c with
    | none => rw [hp] at h; cases h
    | some p =>
      cases hr : recallOf m c with
      | none => rw [hp, hr] at h; cases h
      | some r =>
        rw [hp, hr] at h
        simp only [Option.some.injEq, Prod.mk.injEq] at h
        obtain ⟨rfl, rfl⟩ := h
        exact f_parts_le (precisionOf_range hn hp) (recallOf_range hn hr)

/-- C36: precision, recall and F-measure of a class with true positives, by their formulas. -/
theorem C36_formulas {κ : Type} [DecidableEq κ] (o : ClassOrder κ) (site : List ℕ) (m : CM κ)
    (h : Reachable m) (hf : NoFloats m) (hn : NonNeg m) (c : κ) (hc : 0 < truePos m c)
    (v : Average) (beta : ℚ) :
    answer (precision o site (some c) v m) = some (truePos m c / (truePos m c + falsePos m c)) ∧
    answer (recall o site (some c) v m) = some (truePos m c / (truePos m c + falseNeg m c)) ∧
    answer (fmeasure o site (some c) beta v m) = some ((1 + beta ^ 2) * truePos m c /
      ((1 + beta ^ 2) * truePos m c + beta ^ 2 * falseNeg m c + falsePos m c)) := by
  obtain ⟨h1, h2, h3⟩ := answer_class o site m (reachable_sound h) hf c v beta
  rw [h1, h2, h3]
  exact fOf_formula hn hc

/-- C36: a class whose diagonal cell is the integer 0 scores 0. -/
theorem C36_zero {κ : Type} [DecidableEq κ] (o : ClassOrder κ) (site : List ℕ) (m : CM κ)
    (h : Reachable m) (hf : NoFloats m) (c : κ) (hc : cell m c c = .int 0) (v : Average) (beta : ℚ) :
    answer (precision o site (some c) v m) = some 0 ∧
    answer (recall o site (some c) v m) = some 0 ∧
    answer (fmeasure o site (some c) beta v m) = some 0 := by
  obtain ⟨h1, h2, h3⟩ := answer_class o site m (reachable_sound h) hf c v beta
  have hp : precisionOf m c = some 0 := by unfold precisionOf; rw [hc]; exact if_pos rfl
  have hr : recallOf m c = some 0 := by unfold recallOf; rw [hc]; exact if_pos rfl
  rw [h1, h2, h3]
  refine ⟨hp, hr, ?_⟩
  unfold fOf
  rw [hp, hr]
  simp [fOfRatios]

/-- C36: the F-measure of a class lies between its precision and its recall. -/
theorem C36_between {κ : Type} [DecidableEq κ] (o : ClassOrder κ) (site : List ℕ) (m : CM κ)
    (h : Reachable m) (hf : NoFloats m) (hn : NonNeg m) (c : κ) (v : Average) (beta p r f : ℚ)
    (hp : answer (precision o site (some c) v m) = some p)
    (hr : answer (recall o site (some c) v m) = some r)
    (hF : answer (fmeasure o site (some c) beta v m) = some f) : min p r ≤ f ∧ f ≤ max p r := by
  obtain ⟨h1, h2, h3⟩ := answer_class o site m (reachable_sound h) hf c v beta
  rw [h1] at hp
  rw [h2] at hr
  rw [h3] at hF
  have rp := precisionOf_range hn hp
  have rr := recallOf_range hn hr
  unfold fOf at hF
  rw [hp, hr] at hF
  simp only at hF
  unfold fOfRatios at hF
  split at hF
  · rename_i h0
    cases hF
    rcases h0 with rfl | rfl
    · exact ⟨min_le_left _ _, le_max_left _ _⟩
    · exact ⟨min_le_right _ _, le_max_right _ _⟩
  · rename_i h0
    split at hF
    · cases hF
    · cases hF
      rw [not_or] at h0
      exact f_between (lt_of_le_of_ne rp.1 (Ne.symm h0.1)) (lt_of_le_of_ne rr.1 (Ne.symm h0.2))

/-- C36: every query answers, when each diagonal cell is an int or positive and the average is one
of the two offered. -/
theorem C36_total {κ : Type} [DecidableEq κ] (o : ClassOrder κ) (site : List ℕ) (m : CM κ)
    (h : Reachable m) (hf : NoFloats m) (hn : NonNeg m)
    (hd : ∀ c, (∃ n, cell m c c = .int n) ∨ 0 < truePos m c) (q : Query κ)
    (hv : q.about ≠ none ∨ q.version ≠ .other) : ∃ x, answer (q.run o site m) = some x := by
  have hs := reachable_sound h
  have hp : ∀ c, ∃ p, precisionOf m c = some p ∧ (p = 0 ∨ 0 < p) := by
    intro c
    by_cases hc : 0 < truePos m c
    · have := (fOf_formula (beta := 1) hn hc).1
      refine ⟨_, this, .inr (div_pos hc ?_)⟩
      have := falsePos_nonneg hn c
      exact add_pos_of_pos_of_nonneg hc this
    · rcases hd c with ⟨n, h1⟩ | h1
      · have h0 : truePos m c = 0 := le_antisymm (not_lt.1 hc) (hn c c)
        have : cell m c c = .int 0 := by
          rw [h1]
          unfold truePos entry at h0
          rw [h1] at h0
          simp only [PyNum.val] at h0
          rw [Int.cast_eq_zero.1 h0]
        exact ⟨0, by unfold precisionOf; rw [this]; exact if_pos rfl, .inl rfl⟩
      · exact absurd h1 hc
  have hr : ∀ c, ∃ r, recallOf m c = some r ∧ (r = 0 ∨ 0 < r) := by
    intro c
    by_cases hc : 0 < truePos m c
    · have := (fOf_formula (beta := 1) hn hc).2.1
      refine ⟨_, this, .inr (div_pos hc ?_)⟩
      have := falseNeg_nonneg hn c
      exact add_pos_of_pos_of_nonneg hc this
    · rcases hd c with ⟨n, h1⟩ | h1
      · have h0 : truePos m c = 0 := le_antisymm (not_lt.1 hc) (hn c c)
        have : cell m c c = .int 0 := by
          rw [h1]
          unfold truePos entry at h0
          rw [h1] at h0
          simp only [PyNum.val] at h0
          rw [Int.cast_eq_zero.1 h0]
        exact ⟨0, by unfold recallOf; rw [this]; exact if_pos rfl, .inl rfl⟩
      · exact absurd h1 hc
  have key : ∀ {fnc : ClassFn κ} {val parts}, ClassSpec fnc val parts →
      (∀ c, ∃ x, val m c = some x) → (∀ c, ∃ n d, parts m c = some (n, d) ∧ 0 ≤ n ∧ n ≤ d) →
      ∀ (c : Option κ) v, (c ≠ none ∨ v ≠ .other) →
      ∃ x, answer (valueMicroMacro o fnc site c v m) = some x := by
    intro fnc val parts hfn hval hparts c v hcv
    cases c with
    | some c => rw [(value_class hfn site c v m hs hf).1]; exact hval c
    | none =>
      match v with
      | .micro =>
        rw [(value_micro hfn site m hs hf).1]
        unfold microOf
        rw [if_neg (by rintro ⟨c, hc⟩; obtain ⟨n, d, h1, _⟩ := hparts c; rw [h1] at hc; cases hc)]
        simp only
        split
        · exact ⟨_, rfl⟩
        · rename_i hne
          rw [if_neg]
          · exact ⟨_, rfl⟩
          · intro h0
            apply hne
            have hmem : ∀ c, parts m c ≠ some (0, 0) → c ∈ m.labels := by
              intro c hc
              by_contra h0
              exact hc (hfn.off m c (fun h1 => h0 ((mem_labels m c).2 (inUse_hasLabel h1))))
            rw [finsum_eq_sum (S := m.labels)
              (fun c hc => hmem c (fun h0 => hc (by rw [h0]; rfl)))] at h0 ⊢
            refine le_antisymm ?_ (Finset.sum_nonneg (fun c _ => ?_))
            · rw [← h0]
              refine Finset.sum_le_sum (fun c _ => ?_)
              obtain ⟨n, d, h1, _, h2⟩ := hparts c
              rw [h1]; exact h2
            · obtain ⟨n, d, h1, h2, _⟩ := hparts c
              rw [h1]; exact h2
      | .macro =>
        rw [(value_macro hfn site m hs hf).1]
        unfold macroOf
        rw [if_neg (by rintro ⟨c, _, hc⟩; obtain ⟨x, h1⟩ := hval c; rw [h1] at hc; cases hc)]
        exact ⟨_, rfl⟩
      | .other => exact absurd hcv (by simp)
  cases q with
  | precision c v =>
    refine key (precision_spec o) (fun c => (hp c).imp fun _ h => h.1) ?_ c v hv
    intro c
    refine ⟨_, _, rfl, hn c c, ?_⟩
    rw [rowTotal_split]
    exact le_add_of_nonneg_right (falsePos_nonneg hn c)
  | recall c v =>
    refine key (recall_spec o) (fun c => (hr c).imp fun _ h => h.1) ?_ c v hv
    intro c
    refine ⟨_, _, rfl, hn c c, ?_⟩
    rw [colTotal_split]
    exact le_add_of_nonneg_right (falseNeg_nonneg hn c)
  | fmeasure c b v =>
    refine key (fmeasure_spec o b) ?_ ?_ c v hv
    · intro c
      obtain ⟨p, h1, h1'⟩ := hp c
      obtain ⟨r, h2, h2'⟩ := hr c
      unfold fOf
      rw [h1, h2]
      simp only
      unfold fOfRatios
      split
      · exact ⟨_, rfl⟩
      · rename_i h0
        rw [not_or] at h0
        rw [if_neg]
        · exact ⟨_, rfl⟩
        · have hb : 0 ≤ b ^ 2 := sq_nonneg b
          have := mul_nonneg hb ((h1'.resolve_left h0.1).le)
          have := h2'.resolve_left h0.2
          intro h0; linarith
    · intro c
      obtain ⟨p, h1, _⟩ := hp c
      obtain ⟨r, h2, _⟩ := hr c
      unfold fParts
      rw [h1, h2]
      exact ⟨_, _, rfl, f_parts_le (precisionOf_range hn h1) (recallOf_range hn h2)⟩

/-- A Decimal zero on the diagonal of an otherwise empty row makes precision raise: the test
`numerator is 0` only sees the int 0. -/
theorem C36_decimal_zero : ∃ m : CM ℤ, Reachable m ∧ NoFloats m ∧ NonNeg m ∧
    precision ascZ [] (some 1) .micro m = .error .decimalInvalidOperation := by
  refine ⟨({} : CM ℤ).write 1 1 (.dec 0), ⟨ascZ, 0, [.write 1 1 (.dec 0)], rfl⟩, ?_, ?_, by
    decide +kernel⟩ <;>
  · intro p a
    rw [cell_write]
    split
    · simp [PyNum.NoFlt, PyNum.val]
    · rw [cell_eq]; simp [CM.row, dictGet, PyNum.NoFlt, PyNum.val]

example : 0 < truePos exM 1 ∧ (∀ c, (∃ n, cell exM c c = .int n) ∨ 0 < truePos exM c) ∧
    answer (precision ascZ [] (some 1) .micro exM) = some (5 / 6) ∧
    answer (recall ascZ [] (some 1) .micro exM) = some (5 / 7) ∧
    answer (fmeasure ascZ [] (some 1) 2 .micro exM) = some (25 / 34) ∧
    answer (fmeasure ascZ [] none 1 .macro exM) = some (28 / 39) := by
  refine ⟨?_, ?_, by decide +kernel, by decide +kernel, by decide +kernel, by decide +kernel⟩
  · show 0 < (cell exM 1 1).val
    rw [show cell exM 1 1 = .int 5 by decide +kernel]; norm_num [PyNum.val]
  · intro c
    left
    obtain ⟨n, _, h⟩ := exM_ints c c
    exact ⟨n, h⟩

/-- C37: any sequence of queries leaves unchanged the answer of every per-class and every
micro-averaged query; the answer does not depend on the order classes are visited in either. -/
theorem C37_class_and_micro {κ : Type} [DecidableEq κ] (o o' o'' : ClassOrder κ) (k : ℕ)
    (site site' : List ℕ) (m m' : CM κ) (h : Reachable m) (hf : NoFloats m) (qs : List (Query κ))
    (hq : history o k m (qs.map .ask) = .ok m') (q : Query κ)
    (hv : q.about ≠ none ∨ q.version ≠ .macro) :
    answer (q.run o'' site' m') = answer (q.run o' site m) := by
  have hs := reachable_sound h
  have hsame := asks_same o k qs m m' hs hq
  refine (answer_congr o' o'' site site' q hs (hsame.sound hs) hf hsame.cells ?_).symm
  intro h1 h2
  rcases hv with hv | hv
  · exact absurd h1 hv
  · exact absurd h2 hv

/-- C37 for all queries, including macro averages, when the earlier queries asked about labels of
the matrix only and the matrix was made without bare row lookups.

Missing: earlier queries about other labels, for which the claim is false (`C37_unknown_class`). -/
theorem C37_known_classes_partial {κ : Type} [DecidableEq κ] (o o' o'' : ClassOrder κ) (j k : ℕ)
    (site site' : List ℕ) (ops : List (MOp κ)) (hops : ∀ p, .look p ∉ ops) (m m' : CM κ)
    (h : history o j {} ops = .ok m) (hf : NoFloats m) (qs : List (Query κ))
    (hq : history o k m (qs.map .ask) = .ok m')
    (hknown : ∀ q ∈ qs, ∀ l, q.about = some l → HasLabel m l) (q : Query κ) :
    answer (q.run o'' site' m') = answer (q.run o' site m) := by
  have hs := history_sound o j ops {} m sound_empty h
  have hfr := history_fresh o j ops {} m sound_empty fresh_empty hops h
  have hsame := asks_same o k qs m m' hs hq
  refine (answer_congr o' o'' site site' q hs (hsame.sound hs) hf hsame.cells ?_).symm
  intro _ _
  ext l
  rw [classes_mem_of_fresh hfr, classes_mem_of_fresh (hsame.fresh hfr)]
  constructor
  · intro hl
    rcases hsame.only l hl with hl | ⟨q', hq', hl⟩
    · exact hl
    · exact hknown q' hq' l hl
  · exact hsame.more l

/-- C37, what happens otherwise: every label asked about that the matrix did not have counts as one
more class of value 0 in all later macro averages. -/
theorem C37_macro_after {κ : Type} [DecidableEq κ] (o o' o'' : ClassOrder κ) (j k : ℕ)
    (site site' : List ℕ) (ops : List (MOp κ)) (hops : ∀ p, .look p ∉ ops) (m m' : CM κ)
    (h : history o j {} ops = .ok m) (hf : NoFloats m) (qs : List (Query κ))
    (hq : history o k m (qs.map .ask) = .ok m') (known unknown : Finset κ)
    (hk : ∀ l, l ∈ known ↔ HasLabel m l)
    (hu : ∀ l, l ∈ unknown ↔ ¬ HasLabel m l ∧ ∃ q ∈ qs, q.about = some l) (q : Query κ)
    (ha : q.about = none) (hv : q.version = .macro) :
    answer (q.run o'' site' m') = (answer (q.run o' site m)).map
      (fun x : ℚ => x * known.card / (known.card + unknown.card)) := by
  have hs := history_sound o j ops {} m sound_empty h
  have hfr := history_fresh o j ops {} m sound_empty fresh_empty hops h
  have hsame := asks_same o k qs m m' hs hq
  refine answer_macro o' o'' site site' q hs (hsame.sound hs) hf hsame.cells ha hv known unknown
    ?_ ?_ ?_ ?_
  · ext l; rw [classes_mem_of_fresh hfr, hk]
  · ext l
    rw [classes_mem_of_fresh (hsame.fresh hfr), history_labels o k _ m m' hs hq, Finset.mem_union,
      hk, hu]
    simp only [List.mem_map, exists_exists_and_eq_and, MOp.names]
    tauto
  · rw [Finset.disjoint_left]
    intro l h1 h2
    exact ((hu l).1 h2).1 ((hk l).1 h1)
  · intro l hl hin
    exact ((hu l).1 hl).1 (inUse_hasLabel hin)

/-- C37, so exactly when: a macro average other than 0 stays the same if and only if all labels
asked about belong to the matrix. -/
theorem C37_macro_iff {κ : Type} [DecidableEq κ] (o o' o'' : ClassOrder κ) (j k : ℕ)
    (site site' : List ℕ) (ops : List (MOp κ)) (hops : ∀ p, .look p ∉ ops) (m m' : CM κ)
    (h : history o j {} ops = .ok m) (hf : NoFloats m) (qs : List (Query κ))
    (hq : history o k m (qs.map .ask) = .ok m') (q : Query κ)
    (ha : q.about = none) (hv : q.version = .macro) (x : ℚ) (hx : x ≠ 0)
    (hax : answer (q.run o' site m) = some x) :
    answer (q.run o'' site' m') = some x ↔
      ∀ q' ∈ qs, ∀ l, q'.about = some l → HasLabel m l := by
  have hs := history_sound o j ops {} m sound_empty h
  have hfr := history_fresh o j ops {} m sound_empty fresh_empty hops h
  have hasked : ∃ asked : Finset κ, ∀ l, l ∈ asked ↔ ∃ q ∈ qs, q.about = some l :=
    ⟨(qs.filterMap Query.about).toFinset, fun l => by simp⟩
  obtain ⟨asked, hasked⟩ := hasked
  have hlab : ∀ l, l ∈ m.classes.1 ↔ HasLabel m l := classes_mem_of_fresh hfr
  have hfac := C37_macro_after o o' o'' j k site site' ops hops m m' h hf qs hq m.classes.1
    (asked \ m.classes.1) hlab (fun l => by
      rw [Finset.mem_sdiff, hasked, hlab]; tauto) q ha hv
  rw [hfac, hax, Option.map_some]
  have hiff : asked \ m.classes.1 = ∅ ↔ ∀ q' ∈ qs, ∀ l, q'.about = some l → HasLabel m l := by
    rw [Finset.sdiff_eq_empty_iff_subset]
    constructor
    · intro hsub q' hq' l hl
      exact (hlab l).1 (hsub ((hasked l).2 ⟨q', hq', hl⟩))
    · intro hall l hl
      obtain ⟨q', hq', hl'⟩ := (hasked l).1 hl
      exact (hlab l).2 (hall q' hq' l hl')
  rw [← hiff]
  have hne : (m.classes.1.card : ℚ) ≠ 0 := by
    intro h0
    have hz : m.classes.1 = ∅ := by
      rw [← Finset.card_eq_zero]; exact_mod_cast h0
    have hself := C37_macro_after o o' o' j 0 site site ops hops m m h hf [] rfl m.classes.1 ∅ hlab
      (fun l => by simp) q ha hv
    rw [hax, Option.map_some, h0, Option.some.injEq] at hself
    simp at hself
    exact hx hself
  have hnn : (0 : ℚ) ≤ ((asked \ m.classes.1).card : ℚ) := Nat.cast_nonneg _
  have hpos : (0 : ℚ) < (m.classes.1.card : ℚ) := lt_of_le_of_ne (Nat.cast_nonneg _) (Ne.symm hne)
  rw [Option.some.injEq, div_eq_iff (by linarith)]
  constructor
  · intro he
    have : ((asked \ m.classes.1).card : ℚ) = 0 := by
      have := mul_left_cancel₀ hx he
      linarith
    rw [← Finset.card_eq_zero]
    exact_mod_cast this
  · intro he
    rw [he]; simp

/-- Two labels, and a third one asked about, as in `C37_unknown_class` below. -/
example : (∀ l, l ∈ ({1, 2} : Finset ℤ) ↔ HasLabel exM l) ∧
    (∀ l, l ∈ ({9} : Finset ℤ) ↔ ¬ HasLabel exM l ∧
      ∃ q ∈ [Query.precision (some (9 : ℤ)) .micro], q.about = some l) ∧
    (43 / 60 : ℚ) * 2 / (2 + 1) = 43 / 90 := by
  have h : ∀ l, HasLabel exM l ↔ l = 1 ∨ l = 2 := by
    intro l
    unfold HasLabel
    rw [exM_rows]
    simp [eq_comm]
    tauto
  refine ⟨fun l => by rw [h]; simp, fun l => ?_, by norm_num⟩
  rw [h]
  simp only [Finset.mem_singleton, List.mem_singleton, exists_eq_left, Query.about, Option.some.injEq]
  constructor
  · rintro rfl; simp
  · rintro ⟨_, h2⟩; exact h2.symm

/-- C37 is false: asking for the precision of a label the matrix does not have lowers later macro
averages. -/
theorem C37_unknown_class : ∃ m' : CM ℤ,
    history ascZ 0 exM [.ask (.precision (some 9) .micro)] = .ok m' ∧
    answer ((Query.precision none .macro).run ascZ [] exM) = some (43 / 60) ∧
    answer ((Query.precision none .macro).run ascZ [] m') = some (43 / 90) := by
  refine ⟨_, rfl, ?_, ?_⟩ <;> decide +kernel

example : (history ascZ 5 exM [.ask (.precision (some 1) .micro), .ask (.fmeasure none 1 .macro)]).map
    (fun m => answer ((Query.precision none .macro).run ascZ [] m)) = .ok (some (43 / 60)) := by
  decide +kernel

/-! ## The confusion matrix of boundary edit distance -/

/-- The types of a substitution differ. -/
theorem substitution_types {rt : Runtime} {a b : BString} (hl : a.length = b.length) {nT : ℤ}
    {e : Edits} (he : boundaryEditDistance rt a b nT = .ok e) :
    ∀ s ∈ e.substitutions, s.typeA ≠ s.typeB := by
  obtain ⟨S, h1, h2, _⟩ := C08_substitutions_cheapest rt a b hl nT e he
  intro s hs
  have hs' : s ∈ (e.substitutions : Multiset Substitution) := hs
  rw [h2, Multiset.mem_sum] at hs'
  obtain ⟨p, _, hp⟩ := hs'
  rw [Multiset.mem_map] at hp
  obtain ⟨q, hq, rfl⟩ := hp
  have hA := (h1 p).1.left q hq
  have hB := (h1 p).1.right q hq
  simp only [leftover, onlyIn, Finset.mem_sdiff] at hA hB
  intro h0
  simp only at h0
  rw [← h0] at hB
  exact hA.1.2 hB.1.1

/-- Taking a successful confusion matrix call apart. -/
theorem bcm_inv {rt : Runtime} {kw : SimKw} {a b : Seg} {sa sb : BString}
    (ha : Denotes kw.boundaryFormat a sa) (hb : Denotes kw.boundaryFormat b sb) {m : CM BLabel}
    (h : boundaryConfusionMatrix rt kw a b = .ok m) : sa.length = sb.length ∧
    ∃ e, boundaryEditDistance rt sa sb kw.nT = .ok e ∧ Reachable m ∧ ∀ p q, entry m p q =
      ((matchesFrom rt 0 (sa.zip sb)).map (fun t => if some t = p ∧ some t = q then (1 : ℚ) else 0)).sum +
      (e.transpositions.map
        (fun t => if some t.type = p ∧ some t.type = q then credit kw.weight kw.nT t else 0)).sum +
      (e.substitutions.map
        (fun s => if some s.typeA = p ∧ some s.typeB = q then (1 : ℚ) else 0)).sum +
      (e.additions.map
        (fun d => if (additionCell d).1 = p ∧ (additionCell d).2 = q then (1 : ℚ) else 0)).sum := by
  unfold boundaryConfusionMatrix at h
  cases hst : boundaryStatistics rt kw.boundaryFormat kw.nT kw.weight a b with
  | error e => rw [hst] at h; cases h
  | ok st =>
    rw [hst] at h
    obtain ⟨sa', sb', h1, h2⟩ := boundaryStatistics_ok hst
    rw [toBStrings_denotes ha hb] at h1
    simp only [Except.ok.injEq, Prod.mk.injEq] at h1
    obtain ⟨rfl, rfl⟩ := h1
    obtain ⟨hl, he, hed, _, _, _, hm, _⟩ := statistics_ok h2
    have := matrix_inv h
    rw [hm, hed] at this
    exact ⟨hl, _, he, this⟩

/-- C38: every cell of the matrix, from the strings and the edits between them. -/
theorem C38_cells (rt : Runtime) (kw : SimKw) (a b : Seg) (sa sb : BString)
    (ha : Denotes kw.boundaryFormat a sa) (hb : Denotes kw.boundaryFormat b sb) (e : Edits)
    (he : boundaryEditDistance rt sa sb kw.nT = .ok e) (m : CM BLabel)
    (h : boundaryConfusionMatrix rt kw a b = .ok m) :
    (∀ t, entry m (some t) (some t) = matchesOf sa sb t +
      ((e.transpositions.filter (fun x => decide (x.type = t))).map (credit kw.weight kw.nT)).sum) ∧
    (∀ x y, x ≠ y → entry m (some x) (some y) =
      e.substitutions.countP (fun s => decide (s = ⟨x, y⟩))) ∧
    (∀ t, entry m none (some t) = e.additions.countP (fun d => decide (d = ⟨t, .a⟩))) ∧
    (∀ t, entry m (some t) none = e.additions.countP (fun d => decide (d = ⟨t, .b⟩))) ∧
    entry m none none = 0 := by
  obtain ⟨hl, e', he', hr, hm⟩ := bcm_inv ha hb h
  rw [he] at he'
  cases he'
  have hsub := substitution_types hl he
  have hcell : ∀ d : Addition, ∀ p q, ((additionCell d).1 = p ∧ (additionCell d).2 = q) ↔
      (d.side = .a ∧ p = none ∧ q = some d.type) ∨ (d.side = .b ∧ p = some d.type ∧ q = none) := by
    intro d p q
    unfold additionCell
    cases d.side <;> simp [eq_comm]
  refine ⟨?_, ?_, ?_, ?_, ?_⟩
  · intro t
    rw [hm, sum_all_zero e.additions, sum_all_zero e.substitutions, add_zero, add_zero]
    · congr 1
      · simp only [and_self, Option.some.injEq]
        rw [sum_ite_count, count_matches rt hl]
      · simp only [and_self, Option.some.injEq]
        generalize e.transpositions = l
        induction l with
        | nil => rfl
        | cons x xs ih =>
          rw [List.map_cons, List.sum_cons, ih, List.filter_cons]
          by_cases hx : x.type = t <;> simp [hx]
    · intro s hs
      rw [if_neg]
      rintro ⟨h1, h2⟩
      exact hsub s hs (Option.some.inj (h1.trans h2.symm))
    · intro d _
      rw [if_neg]
      rw [hcell]
      simp
  · intro x y hxy
    rw [hm, sum_all_zero e.additions, sum_all_zero e.transpositions,
      sum_all_zero (matchesFrom rt 0 (sa.zip sb)), add_zero, zero_add, zero_add, sum_ite_count]
    · congr 2
      funext s
      congr 1
      rw [eq_iff_iff]
      cases s
      simp
    · intro t _
      rw [if_neg]
      rintro ⟨h1, h2⟩
      exact hxy (Option.some.inj (h1.symm.trans h2))
    · intro t _
      rw [if_neg]
      rintro ⟨h1, h2⟩
      exact hxy (Option.some.inj (h1.symm.trans h2))
    · intro d _
      rw [if_neg]
      rw [hcell]
      simp
  · intro t
    rw [hm, sum_all_zero e.substitutions, sum_all_zero e.transpositions,
      sum_all_zero (matchesFrom rt 0 (sa.zip sb)), add_zero, zero_add, zero_add, sum_ite_count]
    · congr 2
      funext d
      congr 1
      rw [eq_iff_iff, hcell]
      cases d
      simp [eq_comm, and_comm]
    all_goals intro x _; rw [if_neg]; simp
  · intro t
    rw [hm, sum_all_zero e.substitutions, sum_all_zero e.transpositions,
      sum_all_zero (matchesFrom rt 0 (sa.zip sb)), add_zero, zero_add, zero_add, sum_ite_count]
    · congr 2
      funext d
      congr 1
      rw [eq_iff_iff, hcell]
      cases d
      simp [eq_comm, and_comm]
    all_goals intro x _; rw [if_neg]; simp
  · rw [hm, sum_all_zero e.substitutions, sum_all_zero e.transpositions,
      sum_all_zero (matchesFrom rt 0 (sa.zip sb)), sum_all_zero e.additions]
    · simp
    all_goals intro x _; rw [if_neg]; first | (rw [hcell]; simp) | simp

/-- C38: the totals.  The typed diagonal sums to the matches plus the weighted transpositions, the
other typed cells to the substitutions, the `None` row and column to the additions. -/
theorem C38_totals (rt : Runtime) (kw : SimKw) (a b : Seg) (sa sb : BString)
    (ha : Denotes kw.boundaryFormat a sa) (hb : Denotes kw.boundaryFormat b sb) (e : Edits)
    (he : boundaryEditDistance rt sa sb kw.nT = .ok e) (m : CM BLabel)
    (h : boundaryConfusionMatrix rt kw a b = .ok m) :
    ∑ᶠ t, entry m (some t) (some t) =
      matchCount sa sb + (e.transpositions.map (credit kw.weight kw.nT)).sum ∧
    ∑ᶠ q : ℤ × ℤ, (if q.1 = q.2 then 0 else entry m (some q.1) (some q.2)) =
      e.substitutions.length ∧
    ∑ᶠ t, entry m none (some t) + ∑ᶠ t, entry m (some t) none = e.additions.length := by
  obtain ⟨c1, c2, c3, c4, _⟩ := C38_cells rt kw a b sa sb ha hb e he m h
  obtain ⟨hl, e', he', hr, hm⟩ := bcm_inv ha hb h
  rw [he] at he'
  cases he'
  have hsub := substitution_types hl he
  have one : ∀ {α : Type} (l : List α), (l.map (fun _ => (1 : ℚ))).sum = l.length := by
    intro α l; simp
  refine ⟨?_, ?_, ?_⟩
  · rw [← matches_length rt hl, ← finsum_keys e.transpositions Transposition.type
      (credit kw.weight kw.nT), ← one, ← finsum_keys (matchesFrom rt 0 (sa.zip sb)) id,
      ← finsum_add_distrib]
    · apply finsum_congr
      intro t
      rw [hm, sum_all_zero e.additions, sum_all_zero e.substitutions, add_zero, add_zero]
      · simp only [and_self, Option.some.injEq, id]
      · intro s hs
        rw [if_neg]
        rintro ⟨h1, h2⟩
        exact hsub s hs (Option.some.inj (h1.trans h2.symm))
      · intro d _
        rw [if_neg]
        unfold additionCell
        cases d.side <;> simp
    · apply Set.Finite.subset (matchesFrom rt 0 (sa.zip sb)).toFinset.finite_toSet
      intro t ht
      rw [Function.mem_support] at ht
      by_contra h0
      apply ht
      apply sum_all_zero
      intro x hx
      rw [if_neg]
      rintro rfl
      exact h0 (by simpa using hx)
    · apply Set.Finite.subset (e.transpositions.map Transposition.type).toFinset.finite_toSet
      intro t ht
      rw [Function.mem_support] at ht
      by_contra h0
      apply ht
      apply sum_all_zero
      intro x hx
      rw [if_neg]
      rintro rfl
      exact h0 (by
        rw [Finset.mem_coe, List.mem_toFinset]
        exact List.mem_map_of_mem hx)
  · rw [← one, ← finsum_keys e.substitutions (fun s => (s.typeA, s.typeB))]
    apply finsum_congr
    intro q
    split
    · rename_i hq
      symm
      apply sum_all_zero
      intro s hs
      rw [if_neg]
      rintro rfl
      exact hsub s hs hq
    · rename_i hq
      rw [c2 q.1 q.2 hq, ← sum_ite_count]
      congr 2
      funext s
      congr 1
      rw [eq_iff_iff]
      cases s
      cases q
      simp
  · have hside : ∀ sd : Side, ∑ᶠ t : ℤ, (e.additions.countP (fun d => decide (d = ⟨t, sd⟩)) : ℚ) =
        e.additions.countP (fun d => decide (d.side = sd)) := by
      intro sd
      rw [← sum_ite_count, ← finsum_keys e.additions Addition.type]
      apply finsum_congr
      intro t
      rw [← sum_ite_count]
      congr 2
      funext d
      cases d
      by_cases h1 : ‹Side› = sd <;> simp [h1]
    simp only [c3, c4]
    rw [hside, hside]
    generalize e.additions = l
    induction l with
    | nil => simp
    | cons d l ih =>
      simp only [List.countP_cons, List.length_cons]
      push_cast
      rw [← ih]
      cases d.side <;> simp <;> ring

/-- C38: the matrix is one the metrics' theorems apply to. -/
theorem C38_reachable (rt : Runtime) (kw : SimKw) (a b : Seg) (sa sb : BString)
    (ha : Denotes kw.boundaryFormat a sa) (hb : Denotes kw.boundaryFormat b sb) (m : CM BLabel)
    (h : boundaryConfusionMatrix rt kw a b = .ok m) : Reachable m := by
  obtain ⟨_, _, _, hr, _⟩ := bcm_inv ha hb h
  exact hr

example : (boundaryConfusionMatrix .ascending kwSets (.sets exA) (.sets exB)).map
    (fun m => (cell m (some 1) (some 1), cell m (some 3) (some 1), cell m none (some 1),
      cell m (some 5) none)) = .ok (.dec (1 / 2), .int 1, .int 1, .int 1) := by decide +kernel

/-- C39 is false: the roles are swapped.  A boundary that only the first argument (the hypothesis)
places is recorded under `matrix[None][type]`, and one that only the reference places under
`matrix[type][None]`: the cells hold what the documentation says of each other, for all inputs whose
edits are additions only. -/
theorem C39_swapped (rt : Runtime) (kw : SimKw) (hypothesis reference : Seg) (sh sr : BString)
    (ha : Denotes kw.boundaryFormat hypothesis sh) (hb : Denotes kw.boundaryFormat reference sr)
    (hs : SharedTypes rt sh sr) (e : Edits) (he : boundaryEditDistance rt sh sr kw.nT = .ok e)
    (hadd : e.substitutions = [] ∧ e.transpositions = []) (m : CM BLabel)
    (h : boundaryConfusionMatrix rt kw hypothesis reference = .ok m) (t : ℤ) :
    entry m none (some t) =
      ((Finset.range sh.length).filter (fun p => t ∈ onlyIn sh sr p)).card ∧
    entry m (some t) none =
      ((Finset.range sh.length).filter (fun p => t ∈ onlyIn sr sh p)).card := by
  obtain ⟨hl, _⟩ := bcm_inv ha hb h
  obtain ⟨_, _, c3, c4, _⟩ := C38_cells rt kw hypothesis reference sh sr ha hb e he m h
  rw [c3, c4, C06_edits_account_a rt sh sr hl kw.nT hs e he t,
    C06_edits_account_b rt sh sr hl kw.nT hs e he t, hadd.1, hadd.2]
  simp

/-- C39 is false, a witness: the hypothesis splits a unit sequence the reference leaves whole. -/
theorem C39_refuted : ∃ m : CM BLabel,
    boundaryConfusionMatrix .ascending {} (massSeg [2, 4]) (massSeg [6]) = .ok m ∧
    entry m none (some 1) = 1 ∧ entry m (some 1) none = 0 := by
  refine ⟨_, rfl, ?_, ?_⟩ <;> decide +kernel

example : boundaryEditDistance .ascending [∅, {1}, ∅] [∅, ∅, {2}] 1 = .ok ⟨[⟨1, .a⟩, ⟨2, .b⟩], [], []⟩ := by
  decide +kernel

/-- The credit of a transposition under the default weight is its distance over `n_t`. -/
theorem C40_credit (nT : ℤ) (h : 0 < nT) (t : Transposition) :
    credit .default nT t = |(t.start : ℚ) - t.stop| / nT := by
  have hne : (nT : ℚ) ≠ 0 := by exact_mod_cast h.ne'
  simp [credit, Weights.default, weightTScale, scalePairs, spanSum, PyNum.truediv, PyNum.decDiv,
    hne, PyNum.val]

/-- C40 is false: of two transpositions, the one spanning more positions always earns strictly more
credit. -/
theorem C40_inverted (nT : ℤ) (h : 0 < nT) (t u : Transposition) (ht : t.start ≤ t.stop)
    (hu : u.start ≤ u.stop) (hlt : t.stop - t.start < u.stop - u.start) :
    credit .default nT t < credit .default nT u := by
  rw [C40_credit nT h, C40_credit nT h]
  have hpos : (0 : ℚ) < nT := by exact_mod_cast h
  have key : ∀ x : Transposition, x.start ≤ x.stop →
      |(x.start : ℚ) - x.stop| = ((x.stop - x.start : ℕ) : ℚ) := by
    intro x hx
    rw [Nat.cast_sub hx, abs_sub_comm, abs_of_nonneg]
    have : (x.start : ℚ) ≤ x.stop := by exact_mod_cast hx
    linarith
  rw [key t ht, key u hu]
  exact div_lt_div_of_pos_right (by exact_mod_cast hlt) hpos

/-- C40 is false, a witness on the matrices themselves: missing by two positions is credited more
than missing by one. -/
theorem C40_refuted :
    (boundaryConfusionMatrix .ascending { nT := 4 } (massSeg [3, 5]) (massSeg [4, 4])).map
      (fun m => entry m (some 1) (some 1)) = .ok (1 / 4) ∧
    (boundaryConfusionMatrix .ascending { nT := 4 } (massSeg [3, 5]) (massSeg [5, 3])).map
      (fun m => entry m (some 1) (some 1)) = .ok (1 / 2) := by
  constructor <;> decide +kernel

/-- Under the unscaled weight every transposition earns the same, a full match. -/
theorem C40_unscaled (nT : ℤ) (t : Transposition) : credit .unscaled nT t = 1 := by
  simp [credit, Weights.unscaled, weightT, PyNum.val]

end SegEval.Props
