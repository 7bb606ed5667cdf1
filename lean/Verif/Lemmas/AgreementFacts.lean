import Verif.Lemmas.AgreementValue

namespace SegEval

open Spec

/-! ## What one comparison contributes -/

theorem toBStrings_parts {fmt : BoundaryFormat} {a b : Seg} {sa sb : BString}
    (h : toBStrings fmt a b = .ok (sa, sb)) :
    toBString fmt a = .ok sa ∧ toBString fmt b = .ok sb := by
  unfold toBStrings at h
  cases ha : toBString fmt a with
  | error e => rw [ha] at h; cases h
  | ok x =>
    rw [ha] at h
    simp only at h
    cases hb : toBString fmt b with
    | error e => rw [hb] at h; cases h
    | ok y => rw [hb] at h; cases h; exact ⟨rfl, rfl⟩

theorem compareB_default {rt : Runtime} {nT : ℤ} {fmt : BoundaryFormat} {a b : Seg} {n d : PyNum}
    (h : compareB rt nT .default fmt a b = .ok (n, d)) :
    ∃ sa sb, ∃ N : ℚ, ∃ D : ℕ, toBString fmt a = .ok sa ∧ toBString fmt b = .ok sb ∧
      sa.length = sb.length ∧ n = .dec N ∧ d = .int D ∧ 0 ≤ N ∧ N ≤ D ∧ 0 < D ∧
      (N = D ↔ sa = sb) ∧ 0 < sa.length * (identifyTypes sa sb).card := by
  unfold compareB at h
  by_cases ht : (a.truthy && b.truthy) = true
  · rw [if_pos ht] at h
    cases hb : boundarySimilarity rt ⟨fmt, false, true, nT, .default⟩ a b with
    | error e => rw [hb] at h; cases h
    | ok v =>
      obtain ⟨st, hst⟩ := boundarySim_stats hb
      simp only at hst
      obtain ⟨sa, sb, c, h1, hl, he, hm, hc, c0, c1, c2, c3, hD, hp, hty, hpos⟩ := default_facts hst
      have heq := boundarySim_eq (kw := ⟨fmt, false, true, nT, .default⟩) hst hc hD
      rw [hb] at heq
      simp only [if_true] at heq
      cases heq
      rw [hb] at h
      simp only [Except.ok.injEq, Prod.mk.injEq] at h
      obtain ⟨rfl, rfl⟩ := h
      obtain ⟨g1, g2⟩ := toBStrings_parts h1
      refine ⟨sa, sb, _, editCount st.edits + st.matches'.length, g1, g2, hl, rfl, rfl, ?_, ?_, hD, ?_, ?_⟩
      · push_cast; have : (0 : ℚ) ≤ (st.matches'.length : ℚ) := Nat.cast_nonneg _
        linarith
      · linarith
      · rw [sub_eq_self, c2, he, edits_zero_iff hl]
      · rw [hp, hty] at hpos
        rw [hl]
        have : 0 < sb.length * (identifyTypes sa sb).card * (identifyTypes sa sb).card := by
          exact_mod_cast hpos
        exact Nat.pos_of_mul_pos_right this
  · rw [if_neg ht] at h; cases h

/-- The number of boundaries as the package counts them. -/
theorem boundariesOf_eq {fmt : BoundaryFormat} {s : Seg} {b : BString}
    (h : toBString fmt s = .ok b) : boundariesOf fmt s = .ok (boundaryCount b : ℤ) := by
  unfold boundariesOf
  rw [h]
  have hb : b.map (fun p => (p.card : ℤ)) = (List.range b.length).map
      (fun p => ((typesAt b p).card : ℤ)) := by
    apply List.ext_getElem
    · simp
    · intro i h1 h2
      simp only [List.length_map] at h1
      simp [typesAt, h1]
  simp only [hb, boundaryCount]
  congr 1
  push_cast
  induction b.length with
  | zero => rfl
  | succ n ih => rw [List.range_succ, List.map_append, List.sum_append, ih, Finset.sum_range_succ]; simp

theorem boundaryCount_le (a b : BString) (n : ℕ) (hl : a.length = n) :
    boundaryCount a ≤ n * (identifyTypes a b).card ∧
      (boundaryCount a = n * (identifyTypes a b).card ↔
        ∀ p < n, identifyTypes a b ⊆ typesAt a p) := by
  subst hl
  have hle : ∀ p ∈ Finset.range a.length, (typesAt a p).card ≤ (identifyTypes a b).card :=
    fun p _ => Finset.card_le_card (typesAt_subset_left a b p)
  have hc : a.length * (identifyTypes a b).card =
      ∑ _p ∈ Finset.range a.length, (identifyTypes a b).card := by simp
  rw [hc, boundaryCount]
  refine ⟨Finset.sum_le_sum hle, ?_⟩
  rw [Finset.sum_eq_sum_iff_of_le hle]
  simp only [Finset.mem_range]
  constructor
  · intro h p hp
    rw [Finset.eq_of_subset_of_card_le (typesAt_subset_left a b p) (h p hp).ge]
  · intro h p hp
    exact le_antisymm (hle p (Finset.mem_range.2 hp)) (Finset.card_le_card (h p hp))

/-- The row of a job, in terms of the two boundary strings. -/
structure RowIs (fmt : BoundaryFormat) (j : Job) (r : Row) (a b : BString) : Prop where
  coded : ∃ sa sb, dictGet j.2.2 j.1.1 = some sa ∧ dictGet j.2.2 j.1.2 = some sb ∧
    toBString fmt sa = .ok a ∧ toBString fmt sb = .ok b
  len : a.length = b.length
  num : ∃ N : ℚ, r.num = .dec N
  den : ∃ D : ℕ, r.den = .int D
  nonneg : 0 ≤ r.num.val
  le : r.num.val ≤ r.den.val
  den_pos : 0 < r.den.val
  eq_iff : r.num.val = r.den.val ↔ a = b
  pbs : r.pbs = ((a.length * (identifyTypes a b).card : ℕ) : ℤ)
  pbs_pos : 0 < r.pbs
  ba : r.ba = (boundaryCount a : ℤ)
  bb : r.bb = (boundaryCount b : ℤ)

theorem jobRow_parts {cmp : Compare} {fmt : BoundaryFormat} {j : Job} {r : Row}
    (h : jobRow cmp fmt j = .ok r) :
    ∃ sa sb, dictGet j.2.2 j.1.1 = some sa ∧ dictGet j.2.2 j.1.2 = some sb ∧
      cmp fmt sa sb = .ok (r.num, r.den) ∧ potentialBoundaries fmt sa sb = .ok r.pbs ∧
      boundariesOf fmt sa = .ok r.ba ∧ boundariesOf fmt sb = .ok r.bb := by
  unfold jobRow at h
  cases h1 : dictGet j.2.2 j.1.1 with
  | none => rw [h1] at h; cases h
  | some sa =>
    rw [h1] at h
    simp only at h
    cases h2 : dictGet j.2.2 j.1.2 with
    | none => rw [h2] at h; cases h
    | some sb =>
      rw [h2] at h
      simp only at h
      cases h3 : cmp fmt sa sb with
      | error e => rw [h3] at h; cases h
      | ok nd =>
        obtain ⟨num, den⟩ := nd
        rw [h3] at h
        simp only at h
        cases h4 : potentialBoundaries fmt sa sb with
        | error e => rw [h4] at h; cases h
        | ok pbs =>
          rw [h4] at h
          simp only at h
          cases h5 : boundariesOf fmt sa with
          | error e => rw [h5] at h; cases h
          | ok ba =>
            rw [h5] at h
            simp only at h
            cases h6 : boundariesOf fmt sb with
            | error e => rw [h6] at h; cases h
            | ok bb =>
              rw [h6] at h
              cases h
              exact ⟨sa, sb, rfl, rfl, h3, h4, h5, h6⟩

theorem row_default {rt : Runtime} {nT : ℤ} {fmt : BoundaryFormat} {j : Job} {r : Row}
    (h : jobRow (compareB rt nT .default) fmt j = .ok r) : ∃ a b, RowIs fmt j r a b := by
  obtain ⟨sa, sb, h1, h2, h3, h4, h5, h6⟩ := jobRow_parts h
  obtain ⟨a, b, N, D, g1, g2, hl, hn, hd, n0, n1, dp, heq, hpos⟩ := compareB_default h3
  have hts : toBStrings fmt sa sb = .ok (a, b) := by rw [toBStrings, g1]; simp only [g2]
  have hpb : r.pbs = ((a.length * (identifyTypes a b).card : ℕ) : ℤ) := by
    rw [potentialBoundaries, hts] at h4
    rw [← Except.ok.inj h4]
    push_cast
    rfl
  refine ⟨a, b, ⟨⟨sa, sb, h1, h2, g1, g2⟩, hl, ⟨N, hn⟩, ⟨D, hd⟩, ?_, ?_, ?_, ?_, hpb, ?_, ?_, ?_⟩⟩
  · rw [hn]; exact n0
  · rw [hn, hd]; simpa [PyNum.val] using n1
  · rw [hd]; simpa [PyNum.val] using dp
  · rw [hn, hd, ← heq]; simp [PyNum.val]
  · rw [hpb]; exact_mod_cast hpos
  · rw [boundariesOf_eq g1] at h5; exact (Except.ok.inj h5).symm
  · rw [boundariesOf_eq g2] at h6; exact (Except.ok.inj h6).symm

theorem RowIs.ba_nonneg {fmt : BoundaryFormat} {j : Job} {r : Row} {a b : BString}
    (h : RowIs fmt j r a b) : 0 ≤ r.ba ∧ 0 ≤ r.bb ∧ r.ba ≤ r.pbs ∧ r.bb ≤ r.pbs := by
  rw [h.ba, h.bb, h.pbs]
  refine ⟨by positivity, by positivity, ?_, ?_⟩
  · exact_mod_cast (boundaryCount_le a b a.length rfl).1
  · rw [identifyTypes_comm]
    exact_mod_cast (boundaryCount_le b a a.length h.len.symm).1

theorem RowIs.full_iff {fmt : BoundaryFormat} {j : Job} {r : Row} {a b : BString}
    (h : RowIs fmt j r a b) : (r.ba = r.pbs ∧ r.bb = r.pbs) ↔
      ∀ t, UsesType a b t → ∀ p < a.length, t ∈ typesAt a p ∧ t ∈ typesAt b p := by
  rw [h.ba, h.bb, h.pbs]
  have h1 := (boundaryCount_le a b a.length rfl).2
  have h2 := (boundaryCount_le b a a.length h.len.symm).2
  rw [identifyTypes_comm b a] at h2
  rw [Nat.cast_inj, Nat.cast_inj, h1, h2]
  constructor
  · rintro ⟨g1, g2⟩ t ht p hp
    exact ⟨g1 p hp (mem_identifyTypes.2 ht), g2 p hp (mem_identifyTypes.2 ht)⟩
  · intro g
    exact ⟨fun p hp t ht => (g t (mem_identifyTypes.1 ht) p hp).1,
      fun p hp t ht => (g t (mem_identifyTypes.1 ht) p hp).2⟩

/-! ## Sums, means and rates -/

theorem sum_le_eq {α : Type _} (l : List α) (f g : α → ℚ) (h : ∀ x ∈ l, f x ≤ g x) :
    (l.map f).sum ≤ (l.map g).sum ∧ ((l.map f).sum = (l.map g).sum ↔ ∀ x ∈ l, f x = g x) := by
  induction l with
  | nil => simp
  | cons x xs ih =>
    rw [List.forall_mem_cons] at h
    obtain ⟨h1, h2⟩ := ih h.2
    simp only [List.map_cons, List.sum_cons, List.forall_mem_cons, ← h2]
    refine ⟨by linarith [h.1], ?_, ?_⟩
    · intro he
      have := h.1
      constructor <;> linarith
    · rintro ⟨e1, e2⟩; rw [e1, e2]

theorem sum_nonneg' {α : Type _} (l : List α) (f : α → ℚ) (h : ∀ x ∈ l, 0 ≤ f x) :
    0 ≤ (l.map f).sum := by
  have := (sum_le_eq l (fun _ => 0) f h).1
  simpa using this

theorem sum_pos' {α : Type _} (l : List α) (f : α → ℚ) (hl : l ≠ []) (h : ∀ x ∈ l, 0 < f x) :
    0 < (l.map f).sum := by
  cases l with
  | nil => exact absurd rfl hl
  | cons x xs =>
    rw [List.forall_mem_cons] at h
    simp only [List.map_cons, List.sum_cons]
    have := sum_nonneg' xs f (fun y hy => (h.2 y hy).le)
    linarith [h.1]

theorem meanOf_unit (l : List ℚ) (hl : l ≠ []) (h : ∀ x ∈ l, 0 ≤ x ∧ x ≤ 1) :
    0 ≤ meanOf l ∧ meanOf l ≤ 1 ∧ (meanOf l = 1 ↔ ∀ x ∈ l, x = 1) := by
  have hp : (0 : ℚ) < (l.length : ℚ) := by exact_mod_cast List.length_pos_iff.2 hl
  have h0 := sum_nonneg' l id (fun x hx => (h x hx).1)
  obtain ⟨h1, h2⟩ := sum_le_eq l id (fun _ => (1 : ℚ)) (fun x hx => (h x hx).2)
  simp only [List.map_id, List.map_const', List.sum_replicate, nsmul_eq_mul, mul_one, id] at h0 h1 h2
  unfold meanOf
  refine ⟨div_nonneg h0 hp.le, (div_le_one hp).2 h1, ?_⟩
  rw [div_eq_one_iff_eq hp.ne', h2]

theorem rateOf_unit {p : ℤ × ℤ} (h0 : 0 ≤ p.1) (h1 : p.1 ≤ p.2) (h2 : 0 < p.2) :
    0 ≤ rateOf p ∧ rateOf p ≤ 1 ∧ (rateOf p = 1 ↔ p.1 = p.2) := by
  have h2' : (0 : ℚ) < (p.2 : ℚ) := by exact_mod_cast h2
  have h0' : (0 : ℚ) ≤ (p.1 : ℚ) := by exact_mod_cast h0
  have h1' : (p.1 : ℚ) ≤ (p.2 : ℚ) := by exact_mod_cast h1
  unfold rateOf
  refine ⟨div_nonneg h0' h2'.le, (div_le_one h2').2 h1', ?_⟩
  rw [div_eq_one_iff_eq h2'.ne', Int.cast_inj]

theorem tally_unit (l : List (ℤ × ℤ)) (hl : l ≠ []) (h : ∀ p ∈ l, 0 ≤ p.1 ∧ p.1 ≤ p.2 ∧ 0 < p.2) :
    0 ≤ (tally l).1 ∧ (tally l).1 ≤ (tally l).2 ∧ 0 < (tally l).2 ∧
      ((tally l).1 = (tally l).2 ↔ ∀ p ∈ l, p.1 = p.2) := by
  have c1 : ((tally l).1 : ℚ) = (l.map (fun p => (p.1 : ℚ))).sum := by
    rw [tally]; push_cast; rw [List.map_map]; rfl
  have c2 : ((tally l).2 : ℚ) = (l.map (fun p => (p.2 : ℚ))).sum := by
    rw [tally]; push_cast; rw [List.map_map]; rfl
  have a1 := sum_nonneg' l (fun p => (p.1 : ℚ)) (fun p hp => by exact_mod_cast (h p hp).1)
  obtain ⟨a2, a3⟩ := sum_le_eq l (fun p => (p.1 : ℚ)) (fun p => (p.2 : ℚ))
    (fun p hp => by exact_mod_cast (h p hp).2.1)
  have a4 := sum_pos' l (fun p => (p.2 : ℚ)) hl (fun p hp => by exact_mod_cast (h p hp).2.2)
  rw [← c1] at a1
  rw [← c1, ← c2] at a2
  rw [← c2] at a4
  rw [← c1, ← c2] at a3
  refine ⟨by exact_mod_cast a1, by exact_mod_cast a2, by exact_mod_cast a4, ?_⟩
  rw [← Int.cast_inj (α := ℚ), a3]
  simp only [Int.cast_inj]

theorem unit_mul {x y : ℚ} (hx : 0 ≤ x ∧ x ≤ 1) (hy : 0 ≤ y ∧ y ≤ 1) :
    (0 ≤ x * y ∧ x * y ≤ 1) ∧ (x * y = 1 ↔ x = 1 ∧ y = 1) := by
  refine ⟨⟨mul_nonneg hx.1 hy.1, mul_le_one₀ hx.2 hy.1 hy.2⟩, ?_, ?_⟩
  · intro h
    have h1 : x * y ≤ x := mul_le_of_le_one_right hx.1 hy.2
    have h2 : x * y ≤ y := mul_le_of_le_one_left hy.1 hx.2
    exact ⟨le_antisymm hx.2 (by linarith), le_antisymm hy.2 (by linarith)⟩
  · rintro ⟨rfl, rfl⟩; norm_num

/-! ## The coefficients under the default comparison -/

/-- All rows come from two boundary strings. -/
def RowsAre (cmp : Compare) (fmt : BoundaryFormat) (js : List Job) : Prop :=
  ∀ j ∈ js, ∃ a b, RowIs fmt j (rowD cmp fmt j) a b

theorem rowsAre_default {rt : Runtime} {nT : ℤ} {fmt : BoundaryFormat} {js : List Job}
    (h : RowsOk (compareB rt nT .default) fmt js) :
    RowsAre (compareB rt nT .default) fmt js :=
  fun j hj => row_default (h j hj)

/-- The row of a job that does not complete has integer parts. -/
theorem rowsNoFlt_default (rt : Runtime) (nT : ℤ) (fmt : BoundaryFormat) (js : List Job) :
    RowsNoFlt (compareB rt nT .default) fmt js := by
  intro j hj
  cases h : jobRow (compareB rt nT .default) fmt j with
  | error e =>
    have : rowD (compareB rt nT .default) fmt j = default := by simp [rowD, h]
    rw [this]; exact ⟨trivial, trivial⟩
  | ok r =>
    have : rowD (compareB rt nT .default) fmt j = r := by simp [rowD, h]
    rw [this]
    obtain ⟨a, b, hr⟩ := row_default h
    obtain ⟨N, hN⟩ := hr.num
    obtain ⟨D, hD⟩ := hr.den
    rw [hN, hD]; exact ⟨trivial, trivial⟩

variable {cmp : Compare} {fmt : BoundaryFormat} {js : List Job}

theorem actual_unit (h : RowsAre cmp fmt js) (hne : js ≠ []) :
    0 < denSum cmp fmt js ∧ 0 ≤ numSum cmp fmt js / denSum cmp fmt js ∧
      numSum cmp fmt js / denSum cmp fmt js ≤ 1 ∧
      (numSum cmp fmt js / denSum cmp fmt js = 1 ↔
        ∀ j ∈ js, ∀ a b, RowIs fmt j (rowD cmp fmt j) a b → a = b) := by
  have hp : 0 < denSum cmp fmt js := sum_pos' js _ hne (fun j hj => by
    obtain ⟨a, b, hr⟩ := h j hj; exact hr.den_pos)
  have hn : 0 ≤ numSum cmp fmt js := sum_nonneg' js _ (fun j hj => by
    obtain ⟨a, b, hr⟩ := h j hj; exact hr.nonneg)
  obtain ⟨h1, h2⟩ := sum_le_eq js (fun j => (rowD cmp fmt j).num.val)
    (fun j => (rowD cmp fmt j).den.val) (fun j hj => by
      obtain ⟨a, b, hr⟩ := h j hj; exact hr.le)
  refine ⟨hp, div_nonneg hn hp.le, (div_le_one hp).2 h1, ?_⟩
  rw [div_eq_one_iff_eq hp.ne']
  refine Iff.trans h2 ?_
  constructor
  · intro g j hj a b hr; exact hr.eq_iff.1 (g j hj)
  · intro g j hj
    obtain ⟨a, b, hr⟩ := h j hj
    exact hr.eq_iff.2 (g j hj a b hr)

theorem entries_unit (h : RowsAre cmp fmt js) :
    ∀ p ∈ js.flatMap (entriesOf cmp fmt), 0 ≤ p.1 ∧ p.1 ≤ p.2 ∧ 0 < p.2 := by
  intro p hp
  obtain ⟨j, hj, hp⟩ := List.mem_flatMap.1 hp
  obtain ⟨a, b, hr⟩ := h j hj
  obtain ⟨b1, b2, b3, b4⟩ := hr.ba_nonneg
  simp only [entriesOf, List.mem_cons, List.not_mem_nil, or_false] at hp
  rcases hp with rfl | rfl
  · exact ⟨b1, b3, hr.pbs_pos⟩
  · exact ⟨b2, b4, hr.pbs_pos⟩

theorem entries_ne (hne : js ≠ []) : js.flatMap (entriesOf cmp fmt) ≠ [] := by
  obtain ⟨j, hj⟩ := List.exists_mem_of_ne_nil _ hne
  intro h
  rw [List.flatMap_eq_nil_iff] at h
  exact absurd (h j hj) (by simp [entriesOf])

/-- All boundaries possible are placed in all rows. -/
def AllFull (cmp : Compare) (fmt : BoundaryFormat) (js : List Job) : Prop :=
  ∀ j ∈ js, (rowD cmp fmt j).ba = (rowD cmp fmt j).pbs ∧ (rowD cmp fmt j).bb = (rowD cmp fmt j).pbs

theorem entries_full : (∀ p ∈ js.flatMap (entriesOf cmp fmt), p.1 = p.2) ↔ AllFull cmp fmt js := by
  constructor
  · intro h j hj
    exact ⟨h ((rowD cmp fmt j).ba, (rowD cmp fmt j).pbs)
        (List.mem_flatMap.2 ⟨j, hj, by simp [entriesOf]⟩),
      h ((rowD cmp fmt j).bb, (rowD cmp fmt j).pbs)
        (List.mem_flatMap.2 ⟨j, hj, by simp [entriesOf]⟩)⟩
  · intro h p hp
    obtain ⟨j, hj, hp⟩ := List.mem_flatMap.1 hp
    simp only [entriesOf, List.mem_cons, List.not_mem_nil, or_false] at hp
    rcases hp with rfl | rfl
    · exact (h j hj).1
    · exact (h j hj).2

theorem pi_unit (h : RowsAre cmp fmt js) (hne : js ≠ []) :
    0 ≤ piAe cmp fmt js ∧ piAe cmp fmt js ≤ 1 ∧ (piAe cmp fmt js = 1 ↔ AllFull cmp fmt js) := by
  have hu := entries_unit h
  obtain ⟨m0, m1, m2⟩ := meanOf_unit ((js.flatMap (entriesOf cmp fmt)).map rateOf)
    (by simpa using entries_ne (cmp := cmp) (fmt := fmt) hne) (by
      intro x hx
      obtain ⟨p, hp, rfl⟩ := List.mem_map.1 hx
      obtain ⟨u1, u2, u3⟩ := hu p hp
      exact ⟨(rateOf_unit u1 u2 u3).1, (rateOf_unit u1 u2 u3).2.1⟩)
  obtain ⟨q0, q1⟩ := unit_mul ⟨m0, m1⟩ ⟨m0, m1⟩
  unfold piAe
  rw [pow_two]
  refine ⟨q0.1, q0.2, ?_⟩
  rw [q1, and_self, m2, ← entries_full]
  simp only [List.forall_mem_map]
  constructor
  · intro g p hp
    obtain ⟨u1, u2, u3⟩ := hu p hp
    exact (rateOf_unit u1 u2 u3).2.2.1 (g p hp)
  · intro g p hp
    obtain ⟨u1, u2, u3⟩ := hu p hp
    exact (rateOf_unit u1 u2 u3).2.2.2 (g p hp)

theorem share_subset (cmp : Compare) (fmt : BoundaryFormat) (js : List Job) (c : Name) :
    ∀ p ∈ js.flatMap (share cmp fmt c), p ∈ js.flatMap (entriesOf cmp fmt) := by
  intro p hp
  obtain ⟨j, hj, hp⟩ := List.mem_flatMap.1 hp
  refine List.mem_flatMap.2 ⟨j, hj, ?_⟩
  simp only [share, List.mem_append] at hp
  simp only [entriesOf, List.mem_cons, List.not_mem_nil, or_false]
  rcases hp with hp | hp
  · split at hp
    · simp only [List.mem_cons, List.not_mem_nil, or_false] at hp; exact Or.inl hp
    · simp at hp
  · split at hp
    · simp only [List.mem_cons, List.not_mem_nil, or_false] at hp; exact Or.inr hp
    · simp at hp

theorem tallyOf_unit {coders : List Name} {items : Items}
    (h : RowsAre cmp fmt (jobs coders items)) (hne : jobs coders items ≠ []) {c : Name}
    (hc : c ∈ coders) :
    0 ≤ (tallyOf cmp fmt (jobs coders items) c).1 ∧
      (tallyOf cmp fmt (jobs coders items) c).1 ≤ (tallyOf cmp fmt (jobs coders items) c).2 ∧
      0 < (tallyOf cmp fmt (jobs coders items) c).2 ∧
      ((tallyOf cmp fmt (jobs coders items) c).1 = (tallyOf cmp fmt (jobs coders items) c).2 ↔
        ∀ p ∈ (jobs coders items).flatMap (share cmp fmt c), p.1 = p.2) := by
  refine tally_unit _ ?_ (fun p hp => entries_unit h p (share_subset cmp fmt _ c p hp))
  obtain ⟨j, hj, hjc⟩ := (appears_iff hne c).2 hc
  intro h0
  rw [List.flatMap_eq_nil_iff] at h0
  have := h0 j hj
  rcases hjc with hjc | hjc <;> simp [share, hjc] at this

theorem kappa_unit {coders : List Name} {items : Items}
    (h : RowsAre cmp fmt (jobs coders items)) (hne : jobs coders items ≠ []) :
    0 ≤ kappaAe cmp fmt coders (jobs coders items) ∧
      kappaAe cmp fmt coders (jobs coders items) ≤ 1 ∧
      (kappaAe cmp fmt coders (jobs coders items) = 1 ↔ AllFull cmp fmt (jobs coders items)) := by
  have h2 := (jobs_ne_nil.1 hne).1
  have hr : ∀ c ∈ coders, 0 ≤ rateOf (tallyOf cmp fmt (jobs coders items) c) ∧
      rateOf (tallyOf cmp fmt (jobs coders items) c) ≤ 1 := fun c hc => by
    obtain ⟨u1, u2, u3, _⟩ := tallyOf_unit h hne hc
    exact ⟨(rateOf_unit u1 u2 u3).1, (rateOf_unit u1 u2 u3).2.1⟩
  have hpp : pairProducts (coders.map (tallyOf cmp fmt (jobs coders items))) =
      (combinations2 coders).map (fun p => rateOf (tallyOf cmp fmt (jobs coders items) p.1) *
        rateOf (tallyOf cmp fmt (jobs coders items) p.2)) := by
    rw [pairProducts, combinations2_map, List.map_map]; rfl
  have hb := (forall_combinations2 (fun c => 0 ≤ rateOf (tallyOf cmp fmt (jobs coders items) c) ∧
      rateOf (tallyOf cmp fmt (jobs coders items) c) ≤ 1) coders h2).2 hr
  obtain ⟨m0, m1, m2⟩ := meanOf_unit (pairProducts (coders.map (tallyOf cmp fmt (jobs coders items))))
    (by rw [hpp]; simpa using (combinations2_ne_nil coders).2 h2) (by
      intro x hx
      rw [hpp] at hx
      obtain ⟨p, hp, rfl⟩ := List.mem_map.1 hx
      exact (unit_mul (hb p hp).1 (hb p hp).2).1)
  unfold kappaAe
  refine ⟨m0, m1, ?_⟩
  rw [m2, hpp, List.forall_mem_map]
  have e1 : (∀ p ∈ combinations2 coders, rateOf (tallyOf cmp fmt (jobs coders items) p.1) *
        rateOf (tallyOf cmp fmt (jobs coders items) p.2) = 1) ↔
      ∀ p ∈ combinations2 coders, rateOf (tallyOf cmp fmt (jobs coders items) p.1) = 1 ∧
        rateOf (tallyOf cmp fmt (jobs coders items) p.2) = 1 :=
    forall₂_congr (fun p hp => (unit_mul (hb p hp).1 (hb p hp).2).2)
  rw [e1, forall_combinations2
    (fun c => rateOf (tallyOf cmp fmt (jobs coders items) c) = 1) coders h2]
  constructor
  · intro g j hj
    obtain ⟨⟨m, n⟩, it⟩ := j
    have hs := (mem_combinations2 _ _ _).1 (mem_jobs.1 hj).1
    have full : ∀ c ∈ coders, ∀ p ∈ (jobs coders items).flatMap (share cmp fmt c), p.1 = p.2 :=
      fun c hc => by
        obtain ⟨u1, u2, u3, u4⟩ := tallyOf_unit h hne hc
        exact u4.1 ((rateOf_unit u1 u2 u3).2.2.1 (g c hc))
    exact ⟨full m (hs.subset (by simp)) ((rowD cmp fmt ((m, n), it)).ba, (rowD cmp fmt ((m, n), it)).pbs)
        (List.mem_flatMap.2 ⟨_, hj, by simp [share]⟩),
      full n (hs.subset (by simp)) ((rowD cmp fmt ((m, n), it)).bb, (rowD cmp fmt ((m, n), it)).pbs)
        (List.mem_flatMap.2 ⟨_, hj, by simp [share]⟩)⟩
  · intro g c hc
    obtain ⟨u1, u2, u3, u4⟩ := tallyOf_unit h hne hc
    exact (rateOf_unit u1 u2 u3).2.2.2
      (u4.2 (fun p hp => entries_full.2 g p (share_subset cmp fmt _ c p hp)))

/-! ## From jobs to coded items -/

theorem denotes_unique {fmt : BoundaryFormat} {s : Seg} {b b' : BString} (h : Denotes fmt s b)
    (h' : toBString fmt s = .ok b') : b = b' := by
  rw [toBString_denotes h] at h'; exact Except.ok.inj h'

theorem pair_order {α : Type _} {l : List α} {m n : α} (hm : m ∈ l) (hn : n ∈ l) (hne : m ≠ n) :
    (m, n) ∈ combinations2 l ∨ (n, m) ∈ combinations2 l := by
  induction l with
  | nil => simp at hm
  | cons x xs ih =>
    simp only [combinations2, List.mem_append, List.mem_map, Prod.mk.injEq]
    rcases List.mem_cons.1 hm with rfl | hm'
    · rcases List.mem_cons.1 hn with rfl | hn'
      · exact absurd rfl hne
      · exact Or.inl (Or.inl ⟨n, hn', rfl, rfl⟩)
    · rcases List.mem_cons.1 hn with rfl | hn'
      · exact Or.inr (Or.inl ⟨m, hm', rfl, rfl⟩)
      · rcases ih hm' hn' with h | h
        · exact Or.inl (Or.inr h)
        · exact Or.inr (Or.inr h)

theorem pairs_iff {o : ClassOrder Name} {data : AgrData}
    (hd : IsDict data.items) (hc : CodersMatch data) (hv : AllValid fmt data.items)
    (hr : RowsAre cmp fmt (jobsOf o data)) (Q : BString → BString → Prop)
    (hQ : ∀ a b, a.length = b.length → Q a b → Q b a) :
    (∀ j ∈ jobsOf o data, ∀ a b, RowIs fmt j (rowD cmp fmt j) a b → Q a b) ↔
      ∀ label m n sm sn bm bn, m ≠ n → Coded data.items label m sm → Coded data.items label n sn →
        Denotes fmt sm bm → Denotes fmt sn bn → Q bm bn := by
  constructor
  · intro h label m n sm sn bm bn hne cm cn dm dn
    have hm := (o.mem [] _ _).2 ((hc m).2 ⟨_, _, cm⟩)
    have hn := (o.mem [] _ _).2 ((hc n).2 ⟨_, _, cn⟩)
    obtain ⟨codings, c1, c2⟩ := cm
    obtain ⟨codings', c3, c4⟩ := cn
    rw [c1] at c3
    cases c3
    have hit := dictGet_mem c1
    rcases pair_order hm hn hne with hp | hp
    · have hj : ((m, n), (label, codings)) ∈ jobsOf o data := mem_jobs.2 ⟨hp, hit⟩
      obtain ⟨a, b, hab⟩ := hr _ hj
      obtain ⟨sa, sb, g1, g2, g3, g4⟩ := hab.coded
      simp only at g1 g2
      rw [c2] at g1; cases g1
      rw [c4] at g2; cases g2
      rw [denotes_unique dm g3, denotes_unique dn g4]
      exact h _ hj a b hab
    · have hj : ((n, m), (label, codings)) ∈ jobsOf o data := mem_jobs.2 ⟨hp, hit⟩
      obtain ⟨a, b, hab⟩ := hr _ hj
      obtain ⟨sa, sb, g1, g2, g3, g4⟩ := hab.coded
      simp only at g1 g2
      rw [c4] at g1; cases g1
      rw [c2] at g2; cases g2
      rw [denotes_unique dn g3, denotes_unique dm g4]
      exact hQ _ _ hab.len (h _ hj a b hab)
  · rintro h ⟨⟨m, n⟩, ⟨label, codings⟩⟩ hj a b hab
    obtain ⟨sa, sb, g1, g2, g3, g4⟩ := hab.coded
    simp only at g1 g2
    obtain ⟨hp, hit⟩ := mem_jobs.1 hj
    have hs := (mem_combinations2 _ _ _).1 hp
    have hne : m ≠ n := by
      have := hs.nodup (o.nodup [] _)
      simpa using this
    have c1 := dictGet_of_mem hd.1 hit
    have cm : Coded data.items label m sa := ⟨codings, c1, g1⟩
    have cn : Coded data.items label n sb := ⟨codings, c1, g2⟩
    obtain ⟨bm, dm⟩ := hv _ _ _ cm
    obtain ⟨bn, dn⟩ := hv _ _ _ cn
    have := h label m n sa sb bm bn hne cm cn dm dn
    rwa [denotes_unique dm g3, denotes_unique dn g4] at this

theorem complete_iff {o : ClassOrder Name} {data : AgrData}
    (hd : IsDict data.items) (hc : CodersMatch data) (hv : AllValid fmt data.items)
    (hr : RowsAre cmp fmt (jobsOf o data)) :
    (∀ j ∈ jobsOf o data, ∀ a b, RowIs fmt j (rowD cmp fmt j) a b → a = b) ↔
      CompleteAgreement fmt data.items := by
  rw [pairs_iff hd hc hv hr (fun a b => a = b) (fun _ _ _ h => h.symm)]
  constructor
  · intro h label m n sm sn bm bn cm cn dm dn
    by_cases hne : m = n
    · subst hne
      obtain ⟨codings, c1, c2⟩ := cm
      obtain ⟨codings', c3, c4⟩ := cn
      rw [c1] at c3; cases c3
      rw [c2] at c4; cases c4
      exact denotes_unique dm (toBString_denotes dn)
    · exact h label m n sm sn bm bn hne cm cn dm dn
  · intro h label m n sm sn bm bn _ cm cn dm dn
    exact h label m n sm sn bm bn cm cn dm dn

theorem full_iff {o : ClassOrder Name} {data : AgrData}
    (hd : IsDict data.items) (hc : CodersMatch data) (hv : AllValid fmt data.items)
    (hr : RowsAre cmp fmt (jobsOf o data)) :
    AllFull cmp fmt (jobsOf o data) ↔ Saturated fmt data.items := by
  have e1 : AllFull cmp fmt (jobsOf o data) ↔ ∀ j ∈ jobsOf o data, ∀ a b,
      RowIs fmt j (rowD cmp fmt j) a b →
      ∀ t, UsesType a b t → ∀ p < a.length, t ∈ typesAt a p ∧ t ∈ typesAt b p := by
    constructor
    · intro h j hj a b hab; exact hab.full_iff.1 (h j hj)
    · intro h j hj
      obtain ⟨a, b, hab⟩ := hr j hj
      exact hab.full_iff.2 (h j hj a b hab)
  rw [e1, pairs_iff hd hc hv hr
    (fun a b => ∀ t, UsesType a b t → ∀ p < a.length, t ∈ typesAt a p ∧ t ∈ typesAt b p)]
  · constructor
    · intro h label m n sm sn bm bn hne cm cn dm dn t ht p hp
      exact (h label m n sm sn bm bn hne cm cn dm dn t ht p hp).1
    · intro h label m n sm sn bm bn hne cm cn dm dn t ht p hp
      refine ⟨h label m n sm sn bm bn hne cm cn dm dn t ht p hp, ?_⟩
      have hu : UsesType bn bm t := by
        obtain ⟨q, hq⟩ := ht; exact ⟨q, hq.symm⟩
      have := h label n m sn sm bn bm (Ne.symm hne) cn cm dn dm t hu
      have hlen := (pairs_iff hd hc hv hr (fun a b => a.length = b.length)
        (fun _ _ hl _ => hl.symm)).1 (fun _ _ _ _ hab => hab.len)
        label m n sm sn bm bn hne cm cn dm dn
      exact this p (by omega)
  · intro a b hl h t ht p hp
    have hu : UsesType a b t := by
      obtain ⟨q, hq⟩ := ht; exact ⟨q, hq.symm⟩
    exact (h t hu p (by omega)).symm

end SegEval
