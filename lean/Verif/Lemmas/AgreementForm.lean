import Verif.Lemmas.AgreementBias

namespace SegEval

open Spec

/-! ## Expected agreement as sums over coders -/

theorem combos_sum {R : Type _} [AddCommMonoid R] (F : Name → Name → R) (l : List Name)
    (hl : l.Nodup) :
    ((combinations2 l).map (fun p => F p.1 p.2 + F p.2 p.1)).sum =
      ∑ m ∈ l.toFinset, ∑ n ∈ l.toFinset.erase m, F m n := by
  induction l with
  | nil => simp [combinations2]
  | cons x xs ih =>
    rw [List.nodup_cons] at hl
    have hx : x ∉ xs.toFinset := by rw [List.mem_toFinset]; exact hl.1
    simp only [combinations2, List.map_append, List.map_map, List.sum_append, ih hl.2]
    rw [List.toFinset_cons, Finset.sum_insert hx, Finset.erase_insert hx]
    have e1 : (xs.map ((fun p : Name × Name => F p.1 p.2 + F p.2 p.1) ∘ fun y => (x, y))).sum =
        ∑ n ∈ xs.toFinset, (F x n + F n x) := by
      rw [List.sum_toFinset _ hl.2]
      rfl
    have e2 : ∑ m ∈ xs.toFinset, ∑ n ∈ (insert x xs.toFinset).erase m, F m n =
        ∑ m ∈ xs.toFinset, (F m x + ∑ n ∈ xs.toFinset.erase m, F m n) := by
      refine Finset.sum_congr rfl (fun m hm => ?_)
      have hmx : x ≠ m := fun h => hx (h ▸ hm)
      rw [Finset.erase_insert_of_ne hmx, Finset.sum_insert (fun h => hx (Finset.mem_of_mem_erase h))]
    rw [e1, e2, Finset.sum_add_distrib, Finset.sum_add_distrib, add_assoc]

theorem jobs_sum {R : Type _} [AddCommMonoid R] (coders : List Name) (items : Items) (f : Job → R) :
    ((jobs coders items).map f).sum =
      ((combinations2 coders).map (fun p => (items.map (fun it => f (p, it))).sum)).sum := by
  unfold jobs
  induction combinations2 coders with
  | nil => rfl
  | cons p ps ih =>
    rw [List.flatMap_cons, List.map_append, List.sum_append, ih, List.map_map]
    rfl

theorem order_toFinset (o : ClassOrder Name) (s : Finset Name) : (o.order [] s).toFinset = s := by
  ext x; rw [List.mem_toFinset, o.mem]

section
variable {cmp : Compare} {fmt : BoundaryFormat} {o : ClassOrder Name} {data : AgrData}
  {B : Name → Name → ℕ} {P : Name → Name → Name → ℕ}

/-- The counts of a job. -/
theorem row_counts (hd : IsDict data.items) (hv : AllValid fmt data.items)
    (hr : RowsAre cmp fmt (jobsOf o data)) (hC : Counts fmt data.items B P) {m n : Name}
    {it : Name × Codings} (hj : ((m, n), it) ∈ jobsOf o data) :
    (rowD cmp fmt ((m, n), it)).ba = (B it.1 m : ℤ) ∧
    (rowD cmp fmt ((m, n), it)).bb = (B it.1 n : ℤ) ∧
    (rowD cmp fmt ((m, n), it)).pbs = (P it.1 m n : ℤ) ∧
    (rowD cmp fmt ((m, n), it)).pbs = (P it.1 n m : ℤ) := by
  obtain ⟨label, cs⟩ := it
  obtain ⟨a, b, hab⟩ := hr _ hj
  obtain ⟨sa, sb, c1, c2, c3, c4⟩ := hab.coded
  simp only at c1 c2
  have hl := dictGet_of_mem hd.1 (mem_jobs.1 hj).2
  have cm : Coded data.items label m sa := ⟨cs, hl, c1⟩
  have cn : Coded data.items label n sb := ⟨cs, hl, c2⟩
  obtain ⟨a', da⟩ := hv _ _ _ cm
  obtain ⟨b', db⟩ := hv _ _ _ cn
  have ea := denotes_unique da c3
  have eb := denotes_unique db c4
  subst ea eb
  obtain ⟨t1, u1, v1⟩ := hC.potential label m n sa sb a' b' cm cn da db
  obtain ⟨t2, u2, v2⟩ := hC.potential label n m sb sa b' a' cn cm db da
  have w1 : t1 = identifyTypes a' b' := by ext t; rw [u1, mem_identifyTypes]
  have w2 : t2 = identifyTypes a' b' := by
    ext t; rw [u2, identifyTypes_comm, mem_identifyTypes]
  refine ⟨?_, ?_, ?_, ?_⟩
  · rw [hab.ba, hC.placed label m sa a' cm da]
  · rw [hab.bb, hC.placed label n sb b' cn db]
  · rw [hab.pbs, v1, w1]
  · rw [hab.pbs, v2, w2, hab.len]

theorem piAe_form (hd : IsDict data.items) (hv : AllValid fmt data.items)
    (hr : RowsAre cmp fmt (jobsOf o data)) (hC : Counts fmt data.items B P) :
    piAe cmp fmt (jobsOf o data) = meanRate data.items (getCoders data) B P ^ 2 := by
  rw [piAe_eq]
  congr 1
  unfold meanRate
  have e1 : ((jobsOf o data).map (fun j => ((rowD cmp fmt j).ba + (rowD cmp fmt j).bb : ℤ) /
      ((rowD cmp fmt j).pbs : ℚ))).sum = ∑ m ∈ getCoders data, ∑ n ∈ (getCoders data).erase m,
        (data.items.map (fun it => (B it.1 m : ℚ) / P it.1 m n)).sum := by
    rw [← order_toFinset o (getCoders data), ← combos_sum _ _ (o.nodup _ _)]
    have e2 : (jobsOf o data).map (fun j => ((rowD cmp fmt j).ba + (rowD cmp fmt j).bb : ℤ) /
        ((rowD cmp fmt j).pbs : ℚ)) = (jobsOf o data).map (fun j =>
          (B j.2.1 j.1.1 : ℚ) / P j.2.1 j.1.1 j.1.2 + (B j.2.1 j.1.2 : ℚ) / P j.2.1 j.1.2 j.1.1) := by
      apply List.map_congr_left
      rintro ⟨⟨m, n⟩, it⟩ hj
      obtain ⟨r1, r2, r3, r4⟩ := row_counts hd hv hr hC hj
      rw [r1, r2]
      simp only
      have r3' : ((rowD cmp fmt ((m, n), it)).pbs : ℚ) = (P it.1 m n : ℚ) := by
        rw [r3]; push_cast; rfl
      have r4' : ((rowD cmp fmt ((m, n), it)).pbs : ℚ) = (P it.1 n m : ℚ) := by
        rw [r4]; push_cast; rfl
      push_cast
      rw [add_div, r3', ← r4', r3']
    rw [e2, jobsOf, jobs_sum]
    congr 1
    apply List.map_congr_left
    intro p _
    rw [← List.sum_map_add]
  have e3 : ((2 * (jobsOf o data).length : ℕ) : ℚ) =
      (getCoders data).card * ((getCoders data).card - 1) * data.items.length := by
    rw [jobsOf, jobs_length, order_length]
    push_cast
    rw [← mul_assoc, choose_two_cast]
  rw [e1, e3]

theorem tallyOf_form (hd : IsDict data.items) (hv : AllValid fmt data.items)
    (hr : RowsAre cmp fmt (jobsOf o data)) (hC : Counts fmt data.items B P) {c : Name}
    (hc : c ∈ getCoders data) :
    rateOf (tallyOf cmp fmt (jobsOf o data) c) = coderRate data.items (getCoders data) B P c := by
  have key : ∀ (G : Name → Name → ℚ), ((jobsOf o data).map (fun j => 
      (if c = j.1.1 then G j.2.1 j.1.2 else 0) + (if c = j.1.2 then G j.2.1 j.1.1 else 0))).sum =
      ∑ n ∈ (getCoders data).erase c, (data.items.map (fun it => G it.1 n)).sum := by
    intro G
    have h1 := combos_sum (fun m n => if c = m then (data.items.map (fun it => G it.1 n)).sum else 0)
      (o.order [] (getCoders data)) (o.nodup _ _)
    rw [order_toFinset] at h1
    have h2 : ∑ m ∈ getCoders data, ∑ n ∈ (getCoders data).erase m,
        (if c = m then (data.items.map (fun it => G it.1 n)).sum else 0) =
        ∑ n ∈ (getCoders data).erase c, (data.items.map (fun it => G it.1 n)).sum := by
      rw [Finset.sum_eq_single c]
      · simp
      · intro m _ hm
        exact Finset.sum_eq_zero (fun n _ => if_neg (Ne.symm hm))
      · intro h; exact absurd hc h
    rw [← h2, ← h1, jobsOf, jobs_sum]
    congr 1
    apply List.map_congr_left
    intro p _
    rw [List.sum_map_add]
    congr 1
    · by_cases h : c = p.1
      · simp only [h, if_true]
      · simp [h]
    · by_cases h : c = p.2
      · simp only [h, if_true]
      · simp [h]
  rw [tallyOf_eq, rateOf, coderRate]
  simp only
  congr 1
  · rw [← key (fun l _ => (B l c : ℚ))]
    rw [Int.cast_list_sum, List.map_map]
    congr 1
    apply List.map_congr_left
    rintro ⟨⟨m, n⟩, it⟩ hj
    obtain ⟨r1, r2, r3, r4⟩ := row_counts hd hv hr hC hj
    simp only [Function.comp_def, r1, r2]
    push_cast
    congr 1
    · split
      · rename_i h; rw [h]
      · rfl
    · split
      · rename_i h; rw [h]
      · rfl
  · rw [← key (fun l n => (P l c n : ℚ))]
    rw [Int.cast_list_sum, List.map_map]
    congr 1
    apply List.map_congr_left
    rintro ⟨⟨m, n⟩, it⟩ hj
    obtain ⟨r1, r2, r3, r4⟩ := row_counts hd hv hr hC hj
    have r3' : ((rowD cmp fmt ((m, n), it)).pbs : ℚ) = (P it.1 m n : ℚ) := by
      rw [r3]; push_cast; rfl
    have r4' : ((rowD cmp fmt ((m, n), it)).pbs : ℚ) = (P it.1 n m : ℚ) := by
      rw [r4]; push_cast; rfl
    simp only [Function.comp_def]
    push_cast
    congr 1
    · split
      · rename_i h; rw [r3', h]
      · rfl
    · split
      · rename_i h; rw [r4', h]
      · rfl

theorem kappaAe_form (hd : IsDict data.items) (hv : AllValid fmt data.items)
    (hr : RowsAre cmp fmt (jobsOf o data)) (hC : Counts fmt data.items B P) :
    kappaAe cmp fmt (o.order [] (getCoders data)) (jobsOf o data) =
      meanProduct (getCoders data) (coderRate data.items (getCoders data) B P) := by
  have e0 : pairProducts ((o.order [] (getCoders data)).map (tallyOf cmp fmt (jobsOf o data))) =
      (combinations2 (o.order [] (getCoders data))).map (fun p =>
        coderRate data.items (getCoders data) B P p.1 * coderRate data.items (getCoders data) B P p.2) := by
    rw [pairProducts, combinations2_map, List.map_map]
    apply List.map_congr_left
    rintro ⟨m, n⟩ hp
    have hs := (mem_combinations2 _ _ _).1 hp
    simp only [Function.comp_def]
    rw [tallyOf_form hd hv hr hC ((o.mem _ _ _).1 (hs.subset (by simp))),
      tallyOf_form hd hv hr hC ((o.mem _ _ _).1 (hs.subset (by simp)))]
  rw [kappaAe, e0, meanOf, meanProduct, List.length_map, length_combinations2, order_length]
  have h1 := combos_sum (fun m n => coderRate data.items (getCoders data) B P m *
    coderRate data.items (getCoders data) B P n) (o.order [] (getCoders data)) (o.nodup _ _)
  rw [order_toFinset] at h1
  rw [← h1, ← choose_two_cast]
  have h2 : ((combinations2 (o.order [] (getCoders data))).map (fun p =>
      coderRate data.items (getCoders data) B P p.1 * coderRate data.items (getCoders data) B P p.2 +
      coderRate data.items (getCoders data) B P p.2 * coderRate data.items (getCoders data) B P p.1)).sum =
      2 * ((combinations2 (o.order [] (getCoders data))).map (fun p =>
        coderRate data.items (getCoders data) B P p.1 *
          coderRate data.items (getCoders data) B P p.2)).sum := by
    rw [← List.sum_map_mul_left]
    congr 1
    apply List.map_congr_left
    intro p _
    ring
  rw [h2, mul_div_mul_left _ _ (by norm_num)]

/-- Exchanging the coders of a job leaves its scores alone. -/
theorem row_scores (hd : IsDict data.items) {N D : Name → Name → Name → ℚ}
    (hC : Scores (cmp fmt) data.items N D) (hok : RowsOk cmp fmt (jobsOf o data))
    (hsym : RowsSym cmp cmp fmt (o.order [] (getCoders data)) data.items) {m n : Name}
    {it : Name × Codings} (hj : ((m, n), it) ∈ jobsOf o data) :
    ((rowD cmp fmt ((m, n), it)).num.val = N it.1 m n ∧
      (rowD cmp fmt ((m, n), it)).num.val = N it.1 n m) ∧
    ((rowD cmp fmt ((m, n), it)).den.val = D it.1 m n ∧
      (rowD cmp fmt ((m, n), it)).den.val = D it.1 n m) := by
  obtain ⟨label, cs⟩ := it
  obtain ⟨hp, hit⟩ := mem_jobs.1 hj
  have hsub := (mem_combinations2 _ _ _).1 hp
  have hne : m ≠ n := by have := hsub.nodup (o.nodup [] _); simpa using this
  have hl := dictGet_of_mem hd.1 hit
  have h1 := hok _ hj
  have h2 := (hsym m (hsub.subset (by simp)) n (hsub.subset (by simp)) hne _ hit).2
  rw [h1] at h2
  cases h3 : jobRow cmp fmt ((n, m), (label, cs)) with
  | error e => rw [h3] at h2; cases h2
  | ok r =>
    rw [h3] at h2
    have h4 : r = swapRow (rowD cmp fmt ((m, n), (label, cs))) := Option.some.inj h2
    obtain ⟨sa, sb, a1, a2, a3, _⟩ := jobRow_parts h1
    obtain ⟨ta, tb, b1, b2, b3, _⟩ := jobRow_parts h3
    simp only at a1 a2 b1 b2
    have e1 := hC label m n sa sb _ _ ⟨cs, hl, a1⟩ ⟨cs, hl, a2⟩ a3
    have e2 := hC label n m ta tb _ _ ⟨cs, hl, b1⟩ ⟨cs, hl, b2⟩ b3
    rw [h4] at e2
    exact ⟨⟨e1.1.symm, e2.1.symm⟩, e1.2.symm, e2.2.symm⟩

theorem pooled_form (hd : IsDict data.items) {N D : Name → Name → Name → ℚ}
    (hC : Scores (cmp fmt) data.items N D) (hok : RowsOk cmp fmt (jobsOf o data))
    (hsym : RowsSym cmp cmp fmt (o.order [] (getCoders data)) data.items) :
    numSum cmp fmt (jobsOf o data) / denSum cmp fmt (jobsOf o data) =
      pooled data.items (getCoders data) N D := by
  have key : ∀ (f : Job → ℚ) (G : Name → Name → Name → ℚ),
      (∀ m n it, ((m, n), it) ∈ jobsOf o data → f ((m, n), it) = G it.1 m n ∧
        f ((m, n), it) = G it.1 n m) →
      2 * ((jobsOf o data).map f).sum = ∑ m ∈ getCoders data, ∑ n ∈ (getCoders data).erase m,
        (data.items.map (fun it => G it.1 m n)).sum := by
    intro f G h
    have h1 := combos_sum (fun m n => (data.items.map (fun it => G it.1 m n)).sum)
      (o.order [] (getCoders data)) (o.nodup _ _)
    rw [order_toFinset] at h1
    rw [← h1]
    have h2 : (jobsOf o data).map (fun j => G j.2.1 j.1.1 j.1.2 + G j.2.1 j.1.2 j.1.1) =
        (jobsOf o data).map (fun j => 2 * f j) := by
      apply List.map_congr_left
      rintro ⟨⟨m, n⟩, it⟩ hj
      obtain ⟨g1, g2⟩ := h m n it hj
      simp only
      rw [← g1, ← g2]; ring
    have h3 : ((jobsOf o data).map (fun j => G j.2.1 j.1.1 j.1.2 + G j.2.1 j.1.2 j.1.1)).sum =
        ((combinations2 (o.order [] (getCoders data))).map (fun p =>
          (data.items.map (fun it => G it.1 p.1 p.2)).sum +
            (data.items.map (fun it => G it.1 p.2 p.1)).sum)).sum := by
      rw [jobsOf, jobs_sum]
      congr 1
      apply List.map_congr_left
      intro p _
      rw [← List.sum_map_add]
    rw [← h3, h2, List.sum_map_mul_left]
  have hN := key (fun j => (rowD cmp fmt j).num.val) N
    (fun m n it hj => (row_scores hd hC hok hsym hj).1)
  have hD := key (fun j => (rowD cmp fmt j).den.val) D
    (fun m n it hj => (row_scores hd hC hok hsym hj).2)
  rw [pooled, ← hN, ← hD, mul_div_mul_left _ _ (by norm_num)]
  rfl

end

end SegEval
