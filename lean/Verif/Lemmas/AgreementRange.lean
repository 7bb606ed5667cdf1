import Verif.Lemmas.AgreementForm

namespace SegEval

open Spec

/-! ## What one comparison contributes -/

/-- Two sets of boundaries out of `k` share at least what does not fit. -/
theorem matchCount_ge {a b : BString} (hl : a.length = b.length) :
    boundaryCount a + boundaryCount b ≤ matchCount a b + a.length * (identifyTypes a b).card := by
  rw [boundaryCount, boundaryCount, matchCount, ← hl, ← Finset.sum_add_distrib,
    ← Finset.card_range a.length, ← smul_eq_mul, ← Finset.sum_const, Finset.card_range,
    ← Finset.sum_add_distrib]
  refine Finset.sum_le_sum (fun p _ => ?_)
  have h1 : (typesAt a p ∪ typesAt b p).card ≤ (identifyTypes a b).card := by
    refine Finset.card_le_card (fun t ht => ?_)
    rw [Finset.mem_union] at ht
    exact mem_identifyTypes.2 ⟨p, ht⟩
  have h2 := Finset.card_union_add_card_inter (typesAt a p) (typesAt b p)
  omega

theorem compareB_bounds {rt : Runtime} {nT : ℤ} {fmt : BoundaryFormat} {x y : Seg} {n d : PyNum}
    {a b : BString} (ha : toBString fmt x = .ok a) (hb : toBString fmt y = .ok b)
    (hs : SharedTypes rt a b)
    (h : compareB rt nT .default fmt x y = .ok (n, d)) :
    ((boundaryCount a : ℚ) + boundaryCount b - (a.length * (identifyTypes a b).card : ℕ) ≤ n.val) ∧
      d.val ≤ (a.length * (identifyTypes a b).card : ℕ) := by
  unfold compareB at h
  by_cases ht : (x.truthy && y.truthy) = true
  · rw [if_pos ht] at h
    cases hv : boundarySimilarity rt ⟨fmt, false, true, nT, .default⟩ x y with
    | error e => rw [hv] at h; cases h
    | ok v =>
      obtain ⟨st, hst⟩ := boundarySim_stats hv
      simp only at hst
      obtain ⟨sa, sb, c, h1, hl, he, hm, hc, c0, c1, c2, c3, hD, hp, hty, hpos⟩ := default_facts hst
      have heq := boundarySim_eq (kw := ⟨fmt, false, true, nT, .default⟩) hst hc hD
      rw [hv] at heq
      simp only [if_true] at heq
      cases heq
      rw [hv] at h
      simp only [Except.ok.injEq, Prod.mk.injEq] at h
      obtain ⟨rfl, rfl⟩ := h
      obtain ⟨g1, g2⟩ := toBStrings_parts h1
      rw [ha] at g1; rw [hb] at g2
      cases g1; cases g2
      have h4 := edits_le (rt := rt) hl hs nT
      rw [← he, ← hm] at h4
      have h5 := matchCount_ge hl
      rw [← hm] at h5
      have h5' : (boundaryCount a : ℚ) + boundaryCount b ≤
          st.matches'.length + (a.length * (identifyTypes a b).card : ℕ) := by exact_mod_cast h5
      constructor
      · simp only [PyNum.val]; push_cast at h5' ⊢
        linarith
      · simp only [PyNum.val]
        exact_mod_cast h4
  · rw [if_neg ht] at h; cases h

/-! ## Pairs of coders -/

/-- The least agreement of rates `x` and `y` against the agreement expected of them. -/
theorem least_agreement {x y : ℚ} (hx0 : 0 ≤ x) (hx1 : x ≤ 1) (hy0 : 0 ≤ y) (hy1 : y ≤ 1) :
    x * y - (1 - x * y) / 3 ≤ max 0 (x + y - 1) := by
  rcases le_total (x + y) 1 with h | h
  · refine le_trans ?_ (le_max_left _ _)
    nlinarith [sq_nonneg (x - y)]
  · refine le_trans ?_ (le_max_right _ _)
    nlinarith [sq_nonneg (x - y), mul_nonneg (sub_nonneg.2 hx1) (sub_nonneg.2 hy1)]

theorem coefficient_ge {aa ae : ℚ} (h : ae - (1 - ae) / 3 ≤ aa) (h1 : ae < 1) :
    -1 / 3 ≤ (aa - ae) / (1 - ae) := by
  rw [le_div_iff₀ (by linarith)]
  linarith

section
variable {cmp : Compare} {fmt : BoundaryFormat} {coders : List Name} {items : Items}
  {B : Name → Name → ℕ} {Q : Name → ℕ}

/-- Every coder meets every item once with each other coder. -/
theorem meetings_sum (hnd : coders.Nodup) {c : Name} (hc : c ∈ coders) (F : Name × Codings → ℤ) :
    ((jobs coders items).map (fun j => ((if c = j.1.1 then 1 else 0) +
      (if c = j.1.2 then 1 else 0) : ℤ) * F j.2)).sum =
      ((coders.length : ℤ) - 1) * (items.map F).sum := by
  rw [jobs_sum]
  have e : ∀ p : Name × Name, (items.map (fun it => ((if c = p.1 then 1 else 0) +
      (if c = p.2 then 1 else 0) : ℤ) * F it)).sum =
      ((if c = p.1 then 1 else 0) + (if c = p.2 then 1 else 0) : ℤ) * (items.map F).sum := by
    intro p
    rw [List.sum_map_mul_left]
  simp only [e]
  rw [List.sum_map_mul_right, occurrences coders hnd, if_pos hc]

/-- The rate of a coder, when the potential boundaries of an item are the same for all pairs. -/
theorem rate_uniform (hnd : coders.Nodup) (h2 : 2 ≤ coders.length)
    (hB : ∀ j ∈ jobs coders items, (rowD cmp fmt j).ba = (B j.2.1 j.1.1 : ℤ) ∧
      (rowD cmp fmt j).bb = (B j.2.1 j.1.2 : ℤ))
    (hQ : ∀ j ∈ jobs coders items, (rowD cmp fmt j).pbs = (Q j.2.1 : ℤ)) {c : Name} (hc : c ∈ coders) :
    rateOf (tallyOf cmp fmt (jobs coders items) c) =
      (items.map (fun it => (B it.1 c : ℚ))).sum / (items.map (fun it => (Q it.1 : ℚ))).sum := by
  have e1 : (tallyOf cmp fmt (jobs coders items) c).1 =
      ((coders.length : ℤ) - 1) * (items.map (fun it => (B it.1 c : ℤ))).sum := by
    rw [tallyOf_eq, ← meetings_sum hnd hc]
    simp only
    congr 1
    apply List.map_congr_left
    intro j hj
    rw [(hB j hj).1, (hB j hj).2]
    by_cases h1 : c = j.1.1 <;> by_cases h2 : c = j.1.2
    · rw [if_pos h1, if_pos h2, if_pos h1, if_pos h2, ← h1, ← h2]; ring
    · rw [if_pos h1, if_neg h2, if_pos h1, if_neg h2, ← h1]; ring
    · rw [if_neg h1, if_pos h2, if_neg h1, if_pos h2, ← h2]; ring
    · rw [if_neg h1, if_neg h2, if_neg h1, if_neg h2]; ring
  have e2 : (tallyOf cmp fmt (jobs coders items) c).2 =
      ((coders.length : ℤ) - 1) * (items.map (fun it => (Q it.1 : ℤ))).sum := by
    rw [tallyOf_eq, ← meetings_sum hnd hc]
    simp only
    congr 1
    apply List.map_congr_left
    intro j hj
    rw [hQ j hj]
    split <;> split <;> ring
  have hk : ((coders.length : ℚ) - 1) ≠ 0 := by
    have : (2 : ℚ) ≤ coders.length := by exact_mod_cast h2
    linarith
  have c1 : (((items.map (fun it => (B it.1 c : ℤ))).sum : ℤ) : ℚ) =
      (items.map (fun it => (B it.1 c : ℚ))).sum := by
    rw [Int.cast_list_sum, List.map_map]; simp [Function.comp_def]
  have c2 : (((items.map (fun it => (Q it.1 : ℤ))).sum : ℤ) : ℚ) =
      (items.map (fun it => (Q it.1 : ℚ))).sum := by
    rw [Int.cast_list_sum, List.map_map]; simp [Function.comp_def]
  rw [rateOf, e1, e2, ← c1, ← c2, Int.cast_mul, Int.cast_mul]
  have : (((coders.length : ℤ) - 1 : ℤ) : ℚ) = (coders.length : ℚ) - 1 := by push_cast; rfl
  rw [this, mul_div_mul_left _ _ hk]

/-- Actual agreement is not far below the agreement that kappa expects. -/
theorem kappa_least (hnd : coders.Nodup) (hjs : jobs coders items ≠ [])
    (hB : ∀ j ∈ jobs coders items, (rowD cmp fmt j).ba = (B j.2.1 j.1.1 : ℤ) ∧
      (rowD cmp fmt j).bb = (B j.2.1 j.1.2 : ℤ))
    (hQ : ∀ j ∈ jobs coders items, (rowD cmp fmt j).pbs = (Q j.2.1 : ℤ))
    (hq : ∀ j ∈ jobs coders items, 0 < (rowD cmp fmt j).pbs)
    (hle : ∀ j ∈ jobs coders items, (rowD cmp fmt j).ba ≤ (rowD cmp fmt j).pbs ∧
      (rowD cmp fmt j).bb ≤ (rowD cmp fmt j).pbs)
    (hN : ∀ j ∈ jobs coders items, 0 ≤ (rowD cmp fmt j).num.val ∧
      (((rowD cmp fmt j).ba + (rowD cmp fmt j).bb - (rowD cmp fmt j).pbs : ℤ) : ℚ) ≤
        (rowD cmp fmt j).num.val)
    (hD : ∀ j ∈ jobs coders items, 0 < (rowD cmp fmt j).den.val ∧
      (rowD cmp fmt j).den.val ≤ ((rowD cmp fmt j).pbs : ℚ)) :
    kappaAe cmp fmt coders (jobs coders items) - (1 - kappaAe cmp fmt coders (jobs coders items)) / 3 ≤
      numSum cmp fmt (jobs coders items) / denSum cmp fmt (jobs coders items) := by
  obtain ⟨h2, hi⟩ := jobs_ne_nil.1 hjs
  set C := combinations2 coders with hC
  have hClen : 0 < C.length := by
    rw [hC, length_combinations2]; exact Nat.choose_pos h2
  have hCq : (0 : ℚ) < C.length := by exact_mod_cast hClen
  set Bs : Name → ℚ := fun c => (items.map (fun it => (B it.1 c : ℚ))).sum with hBs
  set QQ : ℚ := (items.map (fun it => (Q it.1 : ℚ))).sum with hQQ
  have hmem : ∀ p ∈ C, ∀ it ∈ items, (p, it) ∈ jobs coders items :=
    fun p hp it hit => mem_jobs.2 ⟨hp, hit⟩
  obtain ⟨p0, hp0⟩ := List.exists_mem_of_length_pos hClen
  have hQpos : 0 < QQ := by
    have : ∀ l : Items, l ≠ [] → (∀ it ∈ l, 0 < Q it.1) → 0 < (l.map (fun it => (Q it.1 : ℚ))).sum := by
      intro l
      induction l with
      | nil => intro h; exact absurd rfl h
      | cons x xs ih =>
        intro _ h
        rw [List.map_cons, List.sum_cons]
        have h1 : (0 : ℚ) < Q x.1 := by exact_mod_cast h x (by simp)
        by_cases hx : xs = []
        · subst hx; simpa using h1
        · have := ih hx (fun it hit => h it (by simp [hit]))
          linarith
    refine this items hi (fun it hit => ?_)
    have h1 := hq _ (hmem p0 hp0 it hit)
    rw [hQ _ (hmem p0 hp0 it hit)] at h1
    exact_mod_cast h1
  have hsubset : ∀ p ∈ C, p.1 ∈ coders ∧ p.2 ∈ coders := by
    rintro ⟨m, n⟩ hp
    have hs := (mem_combinations2 _ _ _).1 hp
    exact ⟨hs.subset (by simp), hs.subset (by simp)⟩
  -- rates
  have hrate : ∀ p ∈ C, rateOf (tallyOf cmp fmt (jobs coders items) p.1) = Bs p.1 / QQ ∧
      rateOf (tallyOf cmp fmt (jobs coders items) p.2) = Bs p.2 / QQ := fun p hp =>
    ⟨rate_uniform hnd h2 hB hQ (hsubset p hp).1, rate_uniform hnd h2 hB hQ (hsubset p hp).2⟩
  have hBle : ∀ p ∈ C, Bs p.1 ≤ QQ ∧ Bs p.2 ≤ QQ := by
    intro p hp
    constructor
    · refine (sum_le_eq items _ _ (fun it hit => ?_)).1
      have h1 := (hle _ (hmem p hp it hit)).1
      rw [hQ _ (hmem p hp it hit), (hB _ (hmem p hp it hit)).1] at h1
      exact_mod_cast h1
    · refine (sum_le_eq items _ _ (fun it hit => ?_)).1
      have h1 := (hle _ (hmem p hp it hit)).2
      rw [hQ _ (hmem p hp it hit), (hB _ (hmem p hp it hit)).2] at h1
      exact_mod_cast h1
  have hB0 : ∀ c, 0 ≤ Bs c := fun c => List.sum_nonneg (by
    intro x hx
    obtain ⟨it, _, rfl⟩ := List.mem_map.1 hx
    positivity)
  -- the mean product
  have hkap : kappaAe cmp fmt coders (jobs coders items) =
      (C.map (fun p => (Bs p.1 / QQ) * (Bs p.2 / QQ))).sum / C.length := by
    rw [kappaAe, pairProducts, combinations2_map, List.map_map, meanOf, List.length_map]
    congr 2
    apply List.map_congr_left
    intro p hp
    simp only [Function.comp_def]
    rw [(hrate p hp).1, (hrate p hp).2]
  -- the denominators
  have hden : denSum cmp fmt (jobs coders items) ≤ C.length * QQ := by
    rw [denSum, jobs_sum]
    have h1 : (C.map (fun p => (items.map (fun it => (rowD cmp fmt (p, it)).den.val)).sum)).sum ≤
        (C.map (fun _ => QQ)).sum := by
      refine (sum_le_eq C _ _ (fun p hp => ?_)).1
      refine (sum_le_eq items _ _ (fun it hit => ?_)).1
      have := (hD _ (hmem p hp it hit)).2
      rw [hQ _ (hmem p hp it hit)] at this
      exact_mod_cast this
    refine le_trans h1 (le_of_eq ?_)
    rw [List.map_const', List.sum_replicate, nsmul_eq_mul]
  have hden0 : 0 < denSum cmp fmt (jobs coders items) := by
    have h1 : ∀ l : List Job, l ≠ [] → (∀ j ∈ l, 0 < (rowD cmp fmt j).den.val) →
        0 < (l.map (fun j => (rowD cmp fmt j).den.val)).sum := by
      intro l
      induction l with
      | nil => intro h; exact absurd rfl h
      | cons x xs ih =>
        intro _ h
        rw [List.map_cons, List.sum_cons]
        have h1 := h x (by simp)
        by_cases hx : xs = []
        · subst hx; simpa using h1
        · have := ih hx (fun it hit => h it (by simp [hit]))
          linarith
    exact h1 _ hjs (fun j hj => (hD j hj).1)
  -- the numerators
  have hnum : (C.map (fun p => QQ * max 0 (Bs p.1 / QQ + Bs p.2 / QQ - 1))).sum ≤
      numSum cmp fmt (jobs coders items) := by
    rw [numSum, jobs_sum]
    refine (sum_le_eq C _ _ (fun p hp => ?_)).1
    rw [mul_max_of_nonneg _ _ hQpos.le, mul_zero]
    refine max_le (List.sum_nonneg ?_) ?_
    · intro x hx
      obtain ⟨it, hit, rfl⟩ := List.mem_map.1 hx
      exact (hN _ (hmem p hp it hit)).1
    · have e : QQ * (Bs p.1 / QQ + Bs p.2 / QQ - 1) = Bs p.1 + Bs p.2 - QQ := by
        field_simp
      rw [e]
      have e2 : Bs p.1 + Bs p.2 - QQ =
          (items.map (fun it => (B it.1 p.1 : ℚ) + B it.1 p.2 - Q it.1)).sum := by
        rw [hBs, hQQ]
        simp only
        clear * -
        induction items with
        | nil => simp
        | cons x xs ih => simp only [List.map_cons, List.sum_cons] at ih ⊢; linarith
      rw [e2]
      refine (sum_le_eq items _ _ (fun it hit => ?_)).1
      have := (hN _ (hmem p hp it hit)).2
      rw [hQ _ (hmem p hp it hit), (hB _ (hmem p hp it hit)).1, (hB _ (hmem p hp it hit)).2] at this
      exact_mod_cast this
  have hnum0 : 0 ≤ numSum cmp fmt (jobs coders items) := List.sum_nonneg (by
    intro x hx
    obtain ⟨j, hj, rfl⟩ := List.mem_map.1 hx
    exact (hN j hj).1)
  -- per pair
  have hpair : (C.map (fun p => QQ * ((Bs p.1 / QQ) * (Bs p.2 / QQ) -
      (1 - (Bs p.1 / QQ) * (Bs p.2 / QQ)) / 3))).sum ≤ numSum cmp fmt (jobs coders items) := by
    refine le_trans ((sum_le_eq C _ _ (fun p hp => ?_)).1) hnum
    refine mul_le_mul_of_nonneg_left (least_agreement ?_ ?_ ?_ ?_) hQpos.le
    · exact div_nonneg (hB0 _) hQpos.le
    · rw [div_le_one hQpos]; exact (hBle p hp).1
    · exact div_nonneg (hB0 _) hQpos.le
    · rw [div_le_one hQpos]; exact (hBle p hp).2
  have hlin : (C.map (fun p => QQ * ((Bs p.1 / QQ) * (Bs p.2 / QQ) -
      (1 - (Bs p.1 / QQ) * (Bs p.2 / QQ)) / 3))).sum =
      QQ * (4 / 3 * (C.map (fun p => (Bs p.1 / QQ) * (Bs p.2 / QQ))).sum - C.length / 3) := by
    clear * -
    induction C with
    | nil => simp
    | cons x xs ih =>
      simp only [List.map_cons, List.sum_cons, List.length_cons] at ih ⊢
      rw [ih]; push_cast; ring
  rw [hlin] at hpair
  rw [hkap]
  refine le_trans ?_ (div_le_div_of_nonneg_left hnum0 hden0 hden)
  rw [le_div_iff₀ (by positivity)]
  have : ((C.map (fun p => (Bs p.1 / QQ) * (Bs p.2 / QQ))).sum / C.length -
      (1 - (C.map (fun p => (Bs p.1 / QQ) * (Bs p.2 / QQ))).sum / C.length) / 3) * (C.length * QQ) =
      QQ * (4 / 3 * (C.map (fun p => (Bs p.1 / QQ) * (Bs p.2 / QQ))).sum - C.length / 3) := by
    field_simp
    ring
  rw [this]
  exact hpair

/-- The same for pi, when all comparisons are of one size. -/
theorem pi_least {P : ℤ} (hjs : jobs coders items ≠ []) (hP0 : 0 < P)
    (hP : ∀ j ∈ jobs coders items, (rowD cmp fmt j).pbs = P)
    (h0 : ∀ j ∈ jobs coders items, 0 ≤ (rowD cmp fmt j).ba ∧ 0 ≤ (rowD cmp fmt j).bb)
    (hle : ∀ j ∈ jobs coders items, (rowD cmp fmt j).ba ≤ (rowD cmp fmt j).pbs ∧
      (rowD cmp fmt j).bb ≤ (rowD cmp fmt j).pbs)
    (hN : ∀ j ∈ jobs coders items, 0 ≤ (rowD cmp fmt j).num.val ∧
      (((rowD cmp fmt j).ba + (rowD cmp fmt j).bb - (rowD cmp fmt j).pbs : ℤ) : ℚ) ≤
        (rowD cmp fmt j).num.val)
    (hD : ∀ j ∈ jobs coders items, 0 < (rowD cmp fmt j).den.val ∧
      (rowD cmp fmt j).den.val ≤ ((rowD cmp fmt j).pbs : ℚ)) :
    piAe cmp fmt (jobs coders items) - (1 - piAe cmp fmt (jobs coders items)) / 3 ≤
      numSum cmp fmt (jobs coders items) / denSum cmp fmt (jobs coders items) := by
  rw [piAe_eq]
  generalize jobs coders items = J at *
  have hPq : (0 : ℚ) < P := by exact_mod_cast hP0
  have hJ : (0 : ℚ) < J.length := by exact_mod_cast List.length_pos_iff.2 hjs
  -- the mean rate
  obtain ⟨s, hs⟩ : ∃ s : ℚ, s = (J.map (fun j => ((rowD cmp fmt j).ba + (rowD cmp fmt j).bb : ℤ) /
      ((rowD cmp fmt j).pbs : ℚ))).sum / ((2 * J.length : ℕ) : ℚ) := ⟨_, rfl⟩
  rw [← hs]
  have hs2 : (J.map (fun j => (((rowD cmp fmt j).ba + (rowD cmp fmt j).bb : ℤ) : ℚ))).sum =
      2 * s * J.length * P := by
    have : (J.map (fun j => ((rowD cmp fmt j).ba + (rowD cmp fmt j).bb : ℤ) /
      ((rowD cmp fmt j).pbs : ℚ))).sum =
      (J.map (fun j => (((rowD cmp fmt j).ba + (rowD cmp fmt j).bb : ℤ) : ℚ))).sum / P := by
      rw [div_eq_mul_inv, ← List.sum_map_mul_right]
      congr 1
      apply List.map_congr_left
      intro j hj
      rw [hP j hj, div_eq_mul_inv]
    rw [this] at hs
    rw [hs]
    push_cast
    field_simp
  have hs0 : 0 ≤ s := by
    rw [hs]
    refine div_nonneg (List.sum_nonneg ?_) (by positivity)
    intro x hx
    obtain ⟨j, hj, rfl⟩ := List.mem_map.1 hx
    refine div_nonneg ?_ ?_
    · have := h0 j hj
      exact_mod_cast add_nonneg this.1 this.2
    · rw [hP j hj]; exact hPq.le
  have hs1 : s ≤ 1 := by
    have h1 := (sum_le_eq J (fun j => (((rowD cmp fmt j).ba + (rowD cmp fmt j).bb : ℤ) : ℚ))
      (fun _ => 2 * (P : ℚ)) (fun j hj => by
        have := hle j hj
        rw [hP j hj] at this
        have : (rowD cmp fmt j).ba + (rowD cmp fmt j).bb ≤ 2 * P := by omega
        exact_mod_cast this)).1
    rw [hs2, List.map_const', List.sum_replicate, nsmul_eq_mul] at h1
    have : (s * (2 * J.length * P)) ≤ 1 * (2 * J.length * P) := by linarith
    exact le_of_mul_le_mul_right this (by positivity)
  have hnum0 : 0 ≤ numSum cmp fmt J := List.sum_nonneg (by
    intro x hx
    obtain ⟨j, hj, rfl⟩ := List.mem_map.1 hx
    exact (hN j hj).1)
  have hnum : (2 * s - 1) * (J.length * P) ≤ numSum cmp fmt J := by
    have h1 := (sum_le_eq J (fun j => (((rowD cmp fmt j).ba + (rowD cmp fmt j).bb : ℤ) : ℚ) - P)
      (fun j => (rowD cmp fmt j).num.val) (fun j hj => by
        have := (hN j hj).2
        rw [hP j hj] at this
        push_cast at this ⊢
        linarith)).1
    rw [numSum]
    refine le_trans (le_of_eq ?_) h1
    have : (J.map (fun j => (((rowD cmp fmt j).ba + (rowD cmp fmt j).bb : ℤ) : ℚ) - P)).sum =
        (J.map (fun j => (((rowD cmp fmt j).ba + (rowD cmp fmt j).bb : ℤ) : ℚ))).sum - J.length * P := by
      clear * -
      induction J with
      | nil => simp
      | cons x xs ih =>
        simp only [List.map_cons, List.sum_cons, List.length_cons] at ih ⊢
        rw [ih]; push_cast; ring
    rw [this, hs2]
    ring
  have hden : denSum cmp fmt J ≤ J.length * P := by
    have h1 := (sum_le_eq J (fun j => (rowD cmp fmt j).den.val) (fun _ => (P : ℚ)) (fun j hj => by
      have := (hD j hj).2
      rw [hP j hj] at this
      exact this)).1
    rw [List.map_const', List.sum_replicate, nsmul_eq_mul] at h1
    exact h1
  have hden0 : 0 < denSum cmp fmt J := by
    have h1 : ∀ l : List Job, l ≠ [] → (∀ j ∈ l, 0 < (rowD cmp fmt j).den.val) →
        0 < (l.map (fun j => (rowD cmp fmt j).den.val)).sum := by
      intro l
      induction l with
      | nil => intro h; exact absurd rfl h
      | cons x xs ih =>
        intro _ h
        rw [List.map_cons, List.sum_cons]
        have h1 := h x (by simp)
        by_cases hx : xs = []
        · subst hx; simpa using h1
        · have := ih hx (fun it hit => h it (by simp [hit]))
          linarith
    exact h1 _ hjs (fun j hj => (hD j hj).1)
  have hla := least_agreement hs0 hs1 hs0 hs1
  rw [← pow_two] at hla
  refine le_trans hla (le_trans ?_ (div_le_div_of_nonneg_left hnum0 hden0 hden))
  refine max_le (div_nonneg hnum0 (by positivity)) ?_
  rw [le_div_iff₀ (by positivity)]
  linarith

end

end SegEval
