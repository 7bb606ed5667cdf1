import Verif.Lemmas.Agreement

namespace SegEval

open Spec

/-! ## Arithmetic of the coefficients -/

theorem truediv_val {x y z : PyNum} (h : x.truediv y = .ok z) :
    z.val = x.val / y.val ∧ y.val ≠ 0 := by
  cases x <;> cases y <;> simp only [PyNum.truediv, PyNum.decDiv, PyNum.fltDiv] at h <;>
    first
    | (split at h
       · first | (split at h <;> cases h) | cases h
       · rename_i hb
         cases h
         exact ⟨rfl, hb⟩)
    | cases h

theorem dec_truediv (a : ℚ) {y : PyNum} (hy : y.NoFlt) (h : y.val ≠ 0) :
    (PyNum.dec a).truediv y = .ok (.dec (a / y.val)) := by
  cases y with
  | flt q => exact absurd hy id
  | int n => exact if_neg (c := (n : ℚ) = 0) h
  | dec q => exact if_neg (c := q = 0) h

theorem noFlt_truediv {x y : PyNum} (hx : x.NoFlt) (hy : y.NoFlt) (h : y.val ≠ 0) :
    ∃ z, x.truediv y = .ok z ∧ z.val = x.val / y.val := by
  cases x with
  | flt q => exact absurd hx id
  | dec a => exact ⟨_, dec_truediv a hy h, rfl⟩
  | int a =>
    cases y with
    | flt q => exact absurd hy id
    | int n => exact ⟨.flt ((a : ℚ) / (n : ℚ)), if_neg (c := (n : ℚ) = 0) h, rfl⟩
    | dec q => exact ⟨.dec ((a : ℚ) / q), if_neg (c := q = 0) h, rfl⟩

theorem pySum_noFlt (l : List PyNum) (h : ∀ x ∈ l, x.NoFlt) :
    ∃ s, pySum l = .ok s ∧ s.NoFlt ∧ s.val = (l.map PyNum.val).sum := by
  obtain ⟨t, h1, h2, h3⟩ := forLoop_add_noFlt l (.int 0) h trivial
  exact ⟨t, h1, h2, by rw [h3]; simp [PyNum.val]⟩

theorem decimalMean_dec (l : List ℚ) (hl : l ≠ []) :
    decimalMean (l.map PyNum.dec) = .ok (.dec (l.sum / l.length)) := by
  obtain ⟨s, h1, _, h3⟩ := pySum_noFlt (l.map PyNum.dec) (by
    intro x hx; obtain ⟨q, _, rfl⟩ := List.mem_map.1 hx; trivial)
  unfold decimalMean
  rw [h1]
  simp only
  rw [PyNum.toDecimal, dec_truediv _ (y := .int _) trivial, h3]
  · simp [PyNum.val, Function.comp_def]
  · simp only [PyNum.val, List.length_map]
    exact_mod_cast (List.length_pos_iff.2 hl).ne'

theorem decimalMean_nil : ∃ e, decimalMean [] = .error e := ⟨.decimalInvalidOperation, by decide +kernel⟩

theorem collect_loop {α : Type _} (g : α → Py PyNum) (l : List α) (acc out : List PyNum) :
    forLoop l acc (fun acc p =>
      match g p with
      | .error e => .error e
      | .ok x => .ok (acc ++ [x])) = .ok out ↔
      ∃ xs : List PyNum, List.Forall₂ (fun p x => g p = .ok x) l xs ∧ out = acc ++ xs := by
  induction l generalizing acc with
  | nil =>
    simp only [forLoop, Except.ok.injEq, List.forall₂_nil_left_iff]
    constructor
    · rintro rfl; exact ⟨[], rfl, by simp⟩
    · rintro ⟨_, rfl, rfl⟩; simp
  | cons p ps ih =>
    simp only [forLoop]
    cases h : g p with
    | error e =>
      simp only [reduceCtorEq, false_iff]
      rintro ⟨xs, h1, _⟩
      cases h1 with
      | cons h1 _ => rw [h] at h1; cases h1
    | ok x =>
      simp only
      rw [ih]
      constructor
      · rintro ⟨xs, h1, h2⟩
        exact ⟨x :: xs, .cons h h1, by rw [h2]; simp⟩
      · rintro ⟨xs, h1, h2⟩
        cases h1 with
        | cons h1 h3 =>
          rw [h] at h1; cases h1
          exact ⟨_, h3, by rw [h2]; simp⟩

theorem forall₂_dec {α : Type _} (g : α → Py PyNum) (v : α → ℚ) (good : α → Prop)
    (hg : ∀ p x, g p = .ok x ↔ good p ∧ x = .dec (v p)) (l : List α) (xs : List PyNum) :
    List.Forall₂ (fun p x => g p = .ok x) l xs ↔
      (∀ p ∈ l, good p) ∧ xs = (l.map v).map PyNum.dec := by
  induction l generalizing xs with
  | nil => simp
  | cons p ps ih =>
    rw [List.forall₂_cons_left_iff]
    constructor
    · rintro ⟨x, ys, h1, h2, rfl⟩
      rw [hg] at h1
      rw [ih] at h2
      refine ⟨List.forall_mem_cons.2 ⟨h1.1, h2.1⟩, ?_⟩
      rw [h1.2, h2.2]; rfl
    · rintro ⟨h1, rfl⟩
      rw [List.forall_mem_cons] at h1
      exact ⟨_, _, (hg _ _).2 ⟨h1.1, rfl⟩, (ih _).2 ⟨h1.2, rfl⟩, rfl⟩

theorem collect_dec {α : Type _} (g : α → Py PyNum) (v : α → ℚ) (good : α → Prop)
    (hg : ∀ p x, g p = .ok x ↔ good p ∧ x = .dec (v p)) (l : List α) (out : List PyNum) :
    forLoop l [] (fun acc p =>
      match g p with
      | .error e => .error e
      | .ok x => .ok (acc ++ [x])) = .ok out ↔
      (∀ p ∈ l, good p) ∧ out = (l.map v).map PyNum.dec := by
  rw [collect_loop]
  constructor
  · rintro ⟨xs, h1, h2⟩
    rw [List.nil_append] at h2
    subst h2
    exact (forall₂_dec g v good hg l _).1 h1
  · intro h
    exact ⟨out, (forall₂_dec g v good hg l _).2 h, by simp⟩

/-- A boundary rate. -/
def rateOf (p : ℤ × ℤ) : ℚ := (p.1 : ℚ) / (p.2 : ℚ)

theorem rate_ok (p : ℤ × ℤ) (x : PyNum) :
    (PyNum.dec (p.1 : ℚ)).truediv (.int p.2) = .ok x ↔ p.2 ≠ 0 ∧ x = .dec (rateOf p) := by
  by_cases h : p.2 = 0
  · simp only [h, ne_eq, not_true_eq_false, false_and, iff_false]
    intro h'
    exact (truediv_val h').2 (by simp [PyNum.val])
  · rw [dec_truediv _ (y := .int p.2) trivial (by simpa [PyNum.val] using h)]
    simp [h, rateOf, PyNum.val, eq_comm]

theorem ratios_ok (l : List (ℤ × ℤ)) (out : List PyNum) :
    ratios l = .ok out ↔ (∀ p ∈ l, p.2 ≠ 0) ∧ out = (l.map rateOf).map PyNum.dec :=
  collect_dec (fun p : ℤ × ℤ => (PyNum.dec (p.1 : ℚ)).truediv (.int p.2)) rateOf (fun p => p.2 ≠ 0)
    rate_ok l out

theorem decimalMean_ok (l : List ℚ) (x : PyNum) :
    decimalMean (l.map PyNum.dec) = .ok x ↔ l ≠ [] ∧ x = .dec (meanOf l) := by
  by_cases h : l = []
  · subst h
    obtain ⟨e, he⟩ := decimalMean_nil
    simp [he]
  · rw [decimalMean_dec l h]
    simp [h, meanOf, eq_comm]

theorem piExpected_ok (cb : List (Name × List (ℤ × ℤ))) (x : PyNum) :
    piExpected cb = .ok x ↔ cb.flatMap Prod.snd ≠ [] ∧ (∀ p ∈ cb.flatMap Prod.snd, p.2 ≠ 0) ∧
      x = .dec (meanOf ((cb.flatMap Prod.snd).map rateOf) ^ 2) := by
  unfold piExpected
  cases h : ratios (cb.flatMap Prod.snd) with
  | error e =>
    simp only [reduceCtorEq, false_iff]
    rintro ⟨_, h1, _⟩
    rw [(ratios_ok _ _).2 ⟨h1, rfl⟩] at h; cases h
  | ok ps =>
    obtain ⟨h1, rfl⟩ := (ratios_ok _ _).1 h
    simp only
    cases h2 : decimalMean (((cb.flatMap Prod.snd).map rateOf).map PyNum.dec) with
    | error e =>
      simp only [reduceCtorEq, false_iff]
      rintro ⟨h3, _⟩
      rw [(decimalMean_ok _ _).2 ⟨by simpa using h3, rfl⟩] at h2; cases h2
    | ok p =>
      obtain ⟨h3, rfl⟩ := (decimalMean_ok _ _).1 h2
      have h3' : cb.flatMap Prod.snd ≠ [] := by
        intro h0; rw [h0] at h3; exact h3 rfl
      simp only [PyNum.mul, Except.ok.injEq]
      constructor
      · rintro rfl; exact ⟨h3', h1, by rw [pow_two]⟩
      · rintro ⟨_, _, rfl⟩; rw [pow_two]

/-- The sums of a coder's entries. -/
def tally (l : List (ℤ × ℤ)) : ℤ × ℤ := ((l.map Prod.fst).sum, (l.map Prod.snd).sum)

theorem rateProduct_ok (m n : List (ℤ × ℤ)) (x : PyNum) :
    rateProduct m n = .ok x ↔ ((tally m).2 ≠ 0 ∧ (tally n).2 ≠ 0) ∧
      x = .dec (rateOf (tally m) * rateOf (tally n)) := by
  unfold rateProduct
  have hm := rate_ok (tally m)
  have hn := rate_ok (tally n)
  simp only [tally] at hm hn ⊢
  cases h1 : (PyNum.dec (((m.map Prod.fst).sum : ℤ) : ℚ)).truediv (.int (m.map Prod.snd).sum) with
  | error e =>
    simp only [reduceCtorEq, false_iff]
    rintro ⟨⟨h2, _⟩, _⟩
    rw [(hm _).2 ⟨h2, rfl⟩] at h1; cases h1
  | ok a =>
    obtain ⟨a1, rfl⟩ := (hm _).1 h1
    simp only
    cases h2 : (PyNum.dec (((n.map Prod.fst).sum : ℤ) : ℚ)).truediv (.int (n.map Prod.snd).sum) with
    | error e =>
      simp only [reduceCtorEq, false_iff]
      rintro ⟨⟨_, h3⟩, _⟩
      rw [(hn _).2 ⟨h3, rfl⟩] at h2; cases h2
    | ok b =>
      obtain ⟨b1, rfl⟩ := (hn _).1 h2
      simp only [PyNum.mul, Except.ok.injEq]
      constructor
      · rintro rfl; exact ⟨⟨a1, b1⟩, rfl⟩
      · rintro ⟨_, rfl⟩; rfl

/-- The products of the rates of all pairs. -/
def pairProducts (l : List (ℤ × ℤ)) : List ℚ :=
  (combinations2 l).map (fun p => rateOf p.1 * rateOf p.2)

theorem combinations2_map {α β : Type _} (f : α → β) (l : List α) :
    combinations2 (l.map f) = (combinations2 l).map (fun p => (f p.1, f p.2)) := by
  induction l with
  | nil => rfl
  | cons x xs ih => simp [combinations2, ih, Function.comp_def]

theorem combinations2_ne_nil {α : Type _} (l : List α) : combinations2 l ≠ [] ↔ 2 ≤ l.length := by
  rw [← List.length_pos_iff, length_combinations2]
  constructor
  · intro h
    by_contra h2
    rw [Nat.choose_eq_zero_of_lt (by omega)] at h
    omega
  · exact fun h => Nat.choose_pos h

theorem forall_combinations2 {α : Type _} (P : α → Prop) (l : List α) (h2 : 2 ≤ l.length) :
    (∀ p ∈ combinations2 l, P p.1 ∧ P p.2) ↔ ∀ x ∈ l, P x := by
  induction l with
  | nil => simp at h2
  | cons x xs ih =>
    constructor
    · intro h
      have hx : ∀ y ∈ xs, P x ∧ P y := fun y hy => h (x, y) (by simp [combinations2, hy])
      obtain ⟨y, hy⟩ := List.exists_mem_of_length_pos (l := xs) (by simp at h2; omega)
      intro z hz
      rcases List.mem_cons.1 hz with rfl | hz
      · exact (hx y hy).1
      · exact (hx z hz).2
    · rintro h ⟨a, b⟩ hp
      rw [mem_combinations2] at hp
      exact ⟨h a (hp.subset (by simp)), h b (hp.subset (by simp))⟩

theorem kappaExpected_ok (cb : List (Name × List (ℤ × ℤ))) (x : PyNum) :
    kappaExpected cb = .ok x ↔ 2 ≤ cb.length ∧ (∀ e ∈ cb, (tally e.2).2 ≠ 0) ∧
      x = .dec (meanOf (pairProducts (cb.map (fun e => tally e.2)))) := by
  unfold kappaExpected
  have hc := collect_dec (fun mn : (Name × List (ℤ × ℤ)) × (Name × List (ℤ × ℤ)) =>
    rateProduct mn.1.2 mn.2.2) (fun mn => rateOf (tally mn.1.2) * rateOf (tally mn.2.2))
    (fun mn => (tally mn.1.2).2 ≠ 0 ∧ (tally mn.2.2).2 ≠ 0)
    (fun mn x => rateProduct_ok mn.1.2 mn.2.2 x) (combinations2 cb)
  have hpp : pairProducts (cb.map (fun e => tally e.2)) =
      (combinations2 cb).map (fun mn => rateOf (tally mn.1.2) * rateOf (tally mn.2.2)) := by
    rw [pairProducts, combinations2_map, List.map_map]; rfl
  cases h : forLoop (combinations2 cb) [] (fun acc mn =>
      match rateProduct mn.1.2 mn.2.2 with
      | .error e => .error e
      | .ok x => .ok (acc ++ [x])) with
  | error e =>
    simp only [reduceCtorEq, false_iff]
    rintro ⟨h1, h2, _⟩
    rw [← forall_combinations2 (fun e : Name × List (ℤ × ℤ) => (tally e.2).2 ≠ 0) cb h1] at h2
    rw [(hc _).2 ⟨h2, rfl⟩] at h; cases h
  | ok ps =>
    obtain ⟨h1, rfl⟩ := (hc _).1 h
    simp only
    rw [decimalMean_ok, hpp]
    constructor
    · rintro ⟨h2, rfl⟩
      have h3 : 2 ≤ cb.length := by rw [← combinations2_ne_nil]; simpa using h2
      exact ⟨h3, (forall_combinations2 _ cb h3).1 h1, rfl⟩
    · rintro ⟨h2, _, rfl⟩
      exact ⟨by simpa using (combinations2_ne_nil cb).2 h2, rfl⟩

theorem chanceCorrect_ok (a e : ℚ) (x : PyNum) :
    chanceCorrect (.dec a) (.dec e) = .ok x ↔ e ≠ 1 ∧ x = .dec ((a - e) / (1 - e)) := by
  unfold chanceCorrect
  simp only [PyNum.sub]
  by_cases h : e = 1
  · subst h
    simp only [ne_eq, not_true_eq_false, false_and, iff_false]
    intro h'
    exact (truediv_val h').2 (by simp [PyNum.val])
  · have h' : (1 : ℚ) - e ≠ 0 := fun h0 => h (by linarith)
    rw [dec_truediv _ (y := .dec _) trivial (by simpa [PyNum.val] using h')]
    simp [h, PyNum.val, eq_comm]

theorem finishAgreement_ok (rp : Bool) (a e : ℚ) (out : AgrOut) :
    finishAgreement rp (.dec a) (.dec e) = .ok out ↔
      e ≠ 1 ∧ out = if rp then .parts (.dec a) (.dec e) else .value (.dec ((a - e) / (1 - e))) := by
  unfold finishAgreement
  cases h : chanceCorrect (.dec a) (.dec e) with
  | error er =>
    simp only [reduceCtorEq, false_iff]
    rintro ⟨h1, _⟩
    rw [(chanceCorrect_ok _ _ _).2 ⟨h1, rfl⟩] at h; cases h
  | ok x =>
    obtain ⟨h1, rfl⟩ := (chanceCorrect_ok _ _ _).1 h
    simp only [h1, ne_eq, not_false_eq_true, true_and]
    cases rp <;> simp [eq_comm]

/-! ## The coefficients in terms of the jobs -/

/-- No job yields floats. -/
def RowsNoFlt (cmp : Compare) (fmt : BoundaryFormat) (js : List Job) : Prop :=
  ∀ j ∈ js, (rowD cmp fmt j).num.NoFlt ∧ (rowD cmp fmt j).den.NoFlt

def numSum (cmp : Compare) (fmt : BoundaryFormat) (js : List Job) : ℚ :=
  (js.map (fun j => (rowD cmp fmt j).num.val)).sum

def denSum (cmp : Compare) (fmt : BoundaryFormat) (js : List Job) : ℚ :=
  (js.map (fun j => (rowD cmp fmt j).den.val)).sum

theorem sums_ok {cmp : Compare} {fmt : BoundaryFormat} {js : List Job} (h : RowsNoFlt cmp fmt js) :
    ∃ n d, pySum (partsOf cmp fmt js).numerators = .ok n ∧ n.NoFlt ∧ n.val = numSum cmp fmt js ∧
      pySum (partsOf cmp fmt js).denominators = .ok d ∧ d.NoFlt ∧ d.val = denSum cmp fmt js := by
  obtain ⟨h1, h2⟩ := partsOf_lists cmp fmt js
  rw [h1, h2]
  obtain ⟨n, n1, n2, n3⟩ := pySum_noFlt (js.map (fun j => (rowD cmp fmt j).num)) (by
    intro x hx; obtain ⟨j, hj, rfl⟩ := List.mem_map.1 hx; exact (h j hj).1)
  obtain ⟨d, d1, d2, d3⟩ := pySum_noFlt (js.map (fun j => (rowD cmp fmt j).den)) (by
    intro x hx; obtain ⟨j, hj, rfl⟩ := List.mem_map.1 hx; exact (h j hj).2)
  exact ⟨n, d, n1, n2, by rw [n3, List.map_map]; rfl, d1, d2, by rw [d3, List.map_map]; rfl⟩

theorem decimalActual_ok {cmp : Compare} {fmt : BoundaryFormat} {js : List Job}
    (h : RowsNoFlt cmp fmt js) (x : PyNum) :
    decimalActual (partsOf cmp fmt js) = .ok x ↔
      denSum cmp fmt js ≠ 0 ∧ x = .dec (numSum cmp fmt js / denSum cmp fmt js) := by
  obtain ⟨n, d, h1, h2, h3, h4, h5, h6⟩ := sums_ok h
  unfold decimalActual
  rw [h1, h4]
  simp only [PyNum.toDecimal]
  by_cases h0 : denSum cmp fmt js = 0
  · simp only [h0, ne_eq, not_true_eq_false, false_and, iff_false]
    intro h'
    exact (truediv_val h').2 (by rw [h6, h0])
  · rw [dec_truediv _ h5 (by rw [h6]; exact h0), h3, h6]
    simp [h0, eq_comm]

theorem actualOfParts_ok {cmp : Compare} {fmt : BoundaryFormat} {js : List Job}
    (h : RowsNoFlt cmp fmt js) {x : PyNum} (hx : actualOfParts (partsOf cmp fmt js) = .ok x) :
    denSum cmp fmt js ≠ 0 ∧ x.val = numSum cmp fmt js / denSum cmp fmt js := by
  obtain ⟨n, d, h1, h2, h3, h4, h5, h6⟩ := sums_ok h
  unfold actualOfParts at hx
  rw [h1, h4] at hx
  obtain ⟨e1, e2⟩ := truediv_val hx
  exact ⟨by rw [← h6]; exact e2, by rw [e1, h3, h6]⟩

theorem actualOfParts_defined {cmp : Compare} {fmt : BoundaryFormat} {js : List Job}
    (h : RowsNoFlt cmp fmt js) :
    (∃ x, actualOfParts (partsOf cmp fmt js) = .ok x) ↔ denSum cmp fmt js ≠ 0 := by
  obtain ⟨n, d, h1, h2, h3, h4, h5, h6⟩ := sums_ok h
  constructor
  · rintro ⟨x, hx⟩; exact (actualOfParts_ok h hx).1
  · intro h0
    unfold actualOfParts
    rw [h1, h4]
    obtain ⟨z, hz, _⟩ := noFlt_truediv h2 h5 (by rw [h6]; exact h0)
    exact ⟨z, hz⟩

/-- Expected agreement of pi. -/
def piAe (cmp : Compare) (fmt : BoundaryFormat) (js : List Job) : ℚ :=
  meanOf ((js.flatMap (entriesOf cmp fmt)).map rateOf) ^ 2

theorem meanOf_perm {l l' : List ℚ} (h : l.Perm l') : meanOf l = meanOf l' := by
  rw [meanOf, meanOf, h.sum_eq, h.length_eq]

theorem pi_ok {cmp : Compare} {fmt : BoundaryFormat} {js : List Job} (x : PyNum) :
    piExpected (partsOf cmp fmt js).codersBoundaries = .ok x ↔
      js ≠ [] ∧ (∀ j ∈ js, (rowD cmp fmt j).pbs ≠ 0) ∧ x = .dec (piAe cmp fmt js) := by
  have hp : ((partsOf cmp fmt js).codersBoundaries.flatMap Prod.snd).Perm
      (js.flatMap (entriesOf cmp fmt)) := by
    have := fold_flat cmp fmt js {}
    simpa [partsOf] using this
  rw [piExpected_ok, piAe, meanOf_perm (hp.map rateOf)]
  have h1 : (partsOf cmp fmt js).codersBoundaries.flatMap Prod.snd ≠ [] ↔ js ≠ [] := by
    rw [not_iff_not, ← List.length_eq_zero_iff, hp.length_eq, List.length_eq_zero_iff,
      List.flatMap_eq_nil_iff]
    constructor
    · intro h
      cases js with
      | nil => rfl
      | cons j js => exact absurd (h j (by simp)) (by simp [entriesOf])
    · rintro rfl; simp
  have h2 : (∀ p ∈ (partsOf cmp fmt js).codersBoundaries.flatMap Prod.snd, p.2 ≠ 0) ↔
      ∀ j ∈ js, (rowD cmp fmt j).pbs ≠ 0 := by
    constructor
    · intro h j hj
      exact h ((rowD cmp fmt j).ba, (rowD cmp fmt j).pbs)
        (hp.mem_iff.2 (List.mem_flatMap.2 ⟨j, hj, by simp [entriesOf]⟩))
    · intro h p hpm
      obtain ⟨j, hj, hp'⟩ := List.mem_flatMap.1 (hp.mem_iff.1 hpm)
      simp only [entriesOf, List.mem_cons, List.not_mem_nil, or_false] at hp'
      rcases hp' with rfl | rfl <;> exact h j hj
  rw [h1, h2]

/-- The entries of coder `c`. -/
def tallyOf (cmp : Compare) (fmt : BoundaryFormat) (js : List Job) (c : Name) : ℤ × ℤ :=
  tally (js.flatMap (share cmp fmt c))

/-- Expected agreement of kappa. -/
def kappaAe (cmp : Compare) (fmt : BoundaryFormat) (coders : List Name) (js : List Job) : ℚ :=
  meanOf (pairProducts (coders.map (tallyOf cmp fmt js)))

theorem mem_jobs {coders : List Name} {items : Items} {j : Job} :
    j ∈ jobs coders items ↔ j.1 ∈ combinations2 coders ∧ j.2 ∈ items := by
  obtain ⟨p, it⟩ := j
  simp only [jobs, List.mem_flatMap, List.mem_map, Prod.mk.injEq]
  constructor
  · rintro ⟨p', h1, it', h2, rfl, rfl⟩; exact ⟨h1, h2⟩
  · rintro ⟨h1, h2⟩; exact ⟨p, h1, it, h2, rfl, rfl⟩

theorem jobs_ne_nil {coders : List Name} {items : Items} :
    jobs coders items ≠ [] ↔ 2 ≤ coders.length ∧ items ≠ [] := by
  rw [← combinations2_ne_nil]
  constructor
  · intro h
    obtain ⟨j, hj⟩ := List.exists_mem_of_ne_nil _ h
    obtain ⟨h1, h2⟩ := mem_jobs.1 hj
    exact ⟨List.ne_nil_of_mem h1, List.ne_nil_of_mem h2⟩
  · rintro ⟨h1, h2⟩
    obtain ⟨p, hp⟩ := List.exists_mem_of_ne_nil _ h1
    obtain ⟨it, hit⟩ := List.exists_mem_of_ne_nil _ h2
    exact List.ne_nil_of_mem ((mem_jobs (j := (p, it))).2 ⟨hp, hit⟩)

theorem appears_iff {coders : List Name} {items : Items} (hjs : jobs coders items ≠ []) (c : Name) :
    (∃ j ∈ jobs coders items, c = j.1.1 ∨ c = j.1.2) ↔ c ∈ coders := by
  obtain ⟨h2, hi⟩ := jobs_ne_nil.1 hjs
  constructor
  · rintro ⟨⟨⟨m, n⟩, it⟩, hj, h⟩
    have hs := (mem_combinations2 _ _ _).1 (mem_jobs.1 hj).1
    rcases h with rfl | rfl
    · exact hs.subset (by simp)
    · exact hs.subset (by simp)
  · intro hc
    by_contra hno
    push Not at hno
    obtain ⟨it, hit⟩ := List.exists_mem_of_ne_nil _ hi
    have := (forall_combinations2 (fun x => c ≠ x) coders h2).1 (fun p hp =>
      hno (p, it) (mem_jobs.2 ⟨hp, hit⟩)) c hc
    exact this rfl

theorem cb_perm {cmp : Compare} {fmt : BoundaryFormat} {coders : List Name} {items : Items}
    (hjs : jobs coders items ≠ []) (hnd : coders.Nodup) :
    (partsOf cmp fmt (jobs coders items)).codersBoundaries.Perm
      (coders.map (fun c => (c, (jobs coders items).flatMap (share cmp fmt c)))) := by
  have hn := fold_nodup cmp fmt (jobs coders items) {} (by simp [dictKeys])
  have hg := fold_get cmp fmt (jobs coders items) {}
  change ((partsOf cmp fmt (jobs coders items)).codersBoundaries.map Prod.fst).Nodup at hn
  refine (List.perm_ext_iff_of_nodup hn.of_map ?_).2 ?_
  · apply List.Nodup.of_map Prod.fst
    rw [List.map_map]
    simpa [Function.comp_def] using hnd
  · rintro ⟨c, v⟩
    have hgc := hg c
    change dictGet (partsOf cmp fmt (jobs coders items)).codersBoundaries c = _ at hgc
    rw [mem_iff_dictGet hn, hgc]
    by_cases hc : c ∈ coders
    · rw [if_pos ((appears_iff hjs c).2 hc)]
      simp [dictGet, hc]
    · rw [if_neg (fun h => hc ((appears_iff hjs c).1 h))]
      simp [dictGet, hc]

theorem pairProducts_perm {l l' : List (ℤ × ℤ)} (h : l.Perm l') :
    (pairProducts l).Perm (pairProducts l') :=
  combos_perm (fun x y : ℤ × ℤ => rateOf x * rateOf y) h (fun _ _ _ _ => mul_comm _ _)

theorem kappa_ok {cmp : Compare} {fmt : BoundaryFormat} {coders : List Name} {items : Items}
    (hjs : jobs coders items ≠ []) (hnd : coders.Nodup) (x : PyNum) :
    kappaExpected (partsOf cmp fmt (jobs coders items)).codersBoundaries = .ok x ↔
      (∀ c ∈ coders, (tallyOf cmp fmt (jobs coders items) c).2 ≠ 0) ∧
        x = .dec (kappaAe cmp fmt coders (jobs coders items)) := by
  have hp := cb_perm (cmp := cmp) (fmt := fmt) hjs hnd
  rw [kappaExpected_ok, hp.length_eq, List.length_map]
  have h2 := (jobs_ne_nil.1 hjs).1
  simp only [h2, true_and]
  have h3 : (∀ e ∈ (partsOf cmp fmt (jobs coders items)).codersBoundaries, (tally e.2).2 ≠ 0) ↔
      ∀ c ∈ coders, (tallyOf cmp fmt (jobs coders items) c).2 ≠ 0 := by
    constructor
    · intro h c hc
      exact h _ (hp.mem_iff.2 (List.mem_map.2 ⟨c, hc, rfl⟩))
    · intro h e he
      obtain ⟨c, hc, rfl⟩ := List.mem_map.1 (hp.mem_iff.1 he)
      exact h c hc
  rw [h3]
  have h4 : meanOf (pairProducts ((partsOf cmp fmt (jobs coders items)).codersBoundaries.map
      (fun e => tally e.2))) = kappaAe cmp fmt coders (jobs coders items) := by
    rw [kappaAe]
    apply meanOf_perm
    have := pairProducts_perm (hp.map (fun e => tally e.2))
    rw [List.map_map] at this
    exact this
  rw [h4]

/-! ## Whole functions -/

/-- All jobs of a call. -/
def jobsOf (o : ClassOrder Name) (data : AgrData) : List Job :=
  jobs (o.order [] (getCoders data)) data.items

/-- Every job completes. -/
def RowsOk (cmp : Compare) (fmt : BoundaryFormat) (js : List Job) : Prop :=
  ∀ j ∈ js, jobRow cmp fmt j = .ok (rowD cmp fmt j)

theorem denSum_nil {cmp : Compare} {fmt : BoundaryFormat} {js : List Job}
    (h : denSum cmp fmt js ≠ 0) : js ≠ [] := by
  rintro rfl; exact h rfl

def agrOut (rp : Bool) (aa ae : ℚ) : AgrOut :=
  if rp then .parts (.dec aa) (.dec ae) else .value (.dec ((aa - ae) / (1 - ae)))

theorem fleissPi_ok {o : ClassOrder Name} {cmp : Compare} {kw : BoundaryFormat} {data : AgrData}
    (hn : RowsNoFlt cmp (agrFormat kw data) (jobsOf o data)) (rp : Bool) (out : AgrOut) :
    fleissPi o cmp kw rp data = .ok out ↔
      equalCodings data.items = true ∧ RowsOk cmp (agrFormat kw data) (jobsOf o data) ∧
      denSum cmp (agrFormat kw data) (jobsOf o data) ≠ 0 ∧
      (∀ j ∈ jobsOf o data, (rowD cmp (agrFormat kw data) j).pbs ≠ 0) ∧
      piAe cmp (agrFormat kw data) (jobsOf o data) ≠ 1 ∧
      out = agrOut rp (numSum cmp (agrFormat kw data) (jobsOf o data) /
        denSum cmp (agrFormat kw data) (jobsOf o data))
        (piAe cmp (agrFormat kw data) (jobsOf o data)) := by
  unfold fleissPi
  cases he : equalCodings data.items with
  | false => simp
  | true =>
    simp only [Bool.true_eq_false, if_false, true_and]
    have hp := agreementParts_ok cmp (agrFormat kw data) (o.order [] (getCoders data)) data.items
    change ∀ p, _ ↔ RowsOk cmp (agrFormat kw data) (jobsOf o data) ∧
      p = partsOf cmp (agrFormat kw data) (jobsOf o data) at hp
    cases h1 : agreementParts cmp (agrFormat kw data) (o.order [] (getCoders data)) data.items with
    | error e =>
      simp only [reduceCtorEq, false_iff]
      rintro ⟨h, _⟩
      rw [(hp _).2 ⟨h, rfl⟩] at h1; cases h1
    | ok p =>
      obtain ⟨h2, rfl⟩ := (hp _).1 h1
      simp only [h2, true_and]
      cases h3 : decimalActual (partsOf cmp (agrFormat kw data) (jobsOf o data)) with
      | error e =>
        simp only [reduceCtorEq, false_iff]
        rintro ⟨h, _⟩
        rw [(decimalActual_ok hn _).2 ⟨h, rfl⟩] at h3; cases h3
      | ok aa =>
        obtain ⟨h4, rfl⟩ := (decimalActual_ok hn _).1 h3
        simp only [h4, ne_eq, not_false_eq_true, true_and]
        cases h5 : piExpected (partsOf cmp (agrFormat kw data) (jobsOf o data)).codersBoundaries with
        | error e =>
          simp only [reduceCtorEq, false_iff]
          rintro ⟨h, _⟩
          rw [(pi_ok _).2 ⟨denSum_nil h4, h, rfl⟩] at h5; cases h5
        | ok ae =>
          obtain ⟨_, h6, rfl⟩ := (pi_ok _).1 h5
          simp only
          rw [finishAgreement_ok]
          constructor
          · rintro ⟨h7, h8⟩; exact ⟨h6, h7, h8⟩
          · rintro ⟨_, h7, h8⟩; exact ⟨h7, h8⟩

theorem fleissKappa_ok {o : ClassOrder Name} {cmp : Compare} {kw : BoundaryFormat} {data : AgrData}
    (hn : RowsNoFlt cmp (agrFormat kw data) (jobsOf o data)) (rp : Bool) (out : AgrOut) :
    fleissKappa o cmp kw rp data = .ok out ↔
      (∀ it ∈ data.items, 2 ≤ it.2.length) ∧
      equalCodings data.items = true ∧ RowsOk cmp (agrFormat kw data) (jobsOf o data) ∧
      denSum cmp (agrFormat kw data) (jobsOf o data) ≠ 0 ∧
      (∀ c ∈ getCoders data, (tallyOf cmp (agrFormat kw data) (jobsOf o data) c).2 ≠ 0) ∧
      kappaAe cmp (agrFormat kw data) (o.order [] (getCoders data)) (jobsOf o data) ≠ 1 ∧
      out = agrOut rp (numSum cmp (agrFormat kw data) (jobsOf o data) /
        denSum cmp (agrFormat kw data) (jobsOf o data))
        (kappaAe cmp (agrFormat kw data) (o.order [] (getCoders data)) (jobsOf o data)) := by
  unfold fleissKappa
  have hlen : (data.items.filter (fun it => decide (it.2.length < 2))).length > 0 ↔
      ¬ ∀ it ∈ data.items, 2 ≤ it.2.length := by
    rw [gt_iff_lt, List.length_pos_iff, ne_eq, List.filter_eq_nil_iff, not_iff_not]
    simp only [decide_eq_true_eq, not_lt]
  by_cases hl : ∀ it ∈ data.items, 2 ≤ it.2.length
  · rw [if_neg (by rw [hlen]; exact not_not.2 hl)]
    refine Iff.trans ?_ (and_iff_right hl).symm
    cases he : equalCodings data.items with
    | false => simp
    | true =>
      simp only [Bool.true_eq_false, if_false, true_and]
      have hp := agreementParts_ok cmp (agrFormat kw data) (o.order [] (getCoders data)) data.items
      change ∀ p, _ ↔ RowsOk cmp (agrFormat kw data) (jobsOf o data) ∧
        p = partsOf cmp (agrFormat kw data) (jobsOf o data) at hp
      cases h1 : agreementParts cmp (agrFormat kw data) (o.order [] (getCoders data)) data.items with
      | error e =>
        simp only [reduceCtorEq, false_iff]
        rintro ⟨h, _⟩
        rw [(hp _).2 ⟨h, rfl⟩] at h1; cases h1
      | ok p =>
        obtain ⟨h2, rfl⟩ := (hp _).1 h1
        simp only [h2, true_and]
        cases h3 : decimalActual (partsOf cmp (agrFormat kw data) (jobsOf o data)) with
        | error e =>
          simp only [reduceCtorEq, false_iff]
          rintro ⟨h, _⟩
          rw [(decimalActual_ok hn _).2 ⟨h, rfl⟩] at h3; cases h3
        | ok aa =>
          obtain ⟨h4, rfl⟩ := (decimalActual_ok hn _).1 h3
          simp only [h4, ne_eq, not_false_eq_true, true_and]
          have hk := kappa_ok (cmp := cmp) (fmt := agrFormat kw data) (denSum_nil h4) (o.nodup _ _)
          change ∀ x, kappaExpected (partsOf cmp (agrFormat kw data)
            (jobsOf o data)).codersBoundaries = .ok x ↔ (∀ c ∈ o.order [] (getCoders data),
              (tallyOf cmp (agrFormat kw data) (jobsOf o data) c).2 ≠ 0) ∧
              x = .dec (kappaAe cmp (agrFormat kw data) (o.order [] (getCoders data))
                (jobsOf o data)) at hk
          simp only [o.mem] at hk
          cases h5 : kappaExpected (partsOf cmp (agrFormat kw data)
            (jobsOf o data)).codersBoundaries with
          | error e =>
            simp only [reduceCtorEq, false_iff]
            rintro ⟨h, _⟩
            rw [(hk _).2 ⟨h, rfl⟩] at h5; cases h5
          | ok ae =>
            obtain ⟨h6, rfl⟩ := (hk _).1 h5
            simp only
            rw [finishAgreement_ok]
            constructor
            · rintro ⟨h7, h8⟩; exact ⟨h6, h7, h8⟩
            · rintro ⟨_, h7, h8⟩; exact ⟨h7, h8⟩
  · rw [if_pos (hlen.2 hl)]
    simp only [reduceCtorEq, false_iff]
    rintro ⟨h, _⟩; exact hl h

theorem actual_ok {o : ClassOrder Name} {cmp : Compare} {kw : BoundaryFormat} {data : AgrData}
    (x : PyNum) : actualAgreement o cmp kw data = .ok x ↔
      RowsOk cmp (agrFormat kw data) (jobsOf o data) ∧
        actualOfParts (partsOf cmp (agrFormat kw data) (jobsOf o data)) = .ok x := by
  unfold actualAgreement
  have hp := agreementParts_ok cmp (agrFormat kw data) (o.order [] (getCoders data)) data.items
  change ∀ p, _ ↔ RowsOk cmp (agrFormat kw data) (jobsOf o data) ∧
    p = partsOf cmp (agrFormat kw data) (jobsOf o data) at hp
  cases h1 : agreementParts cmp (agrFormat kw data) (o.order [] (getCoders data)) data.items with
  | error e =>
    simp only [reduceCtorEq, false_iff]
    rintro ⟨h, _⟩
    rw [(hp _).2 ⟨h, rfl⟩] at h1; cases h1
  | ok p =>
    obtain ⟨h2, rfl⟩ := (hp _).1 h1
    simp [h2]

end SegEval
