import Verif.Lemmas.AgreementRange

namespace SegEval

open Spec

/-! ## Comparing with boundary and with segmentation similarity -/

/-- Both comparisons raise the same error, or both return, from the same cost `c`. -/
theorem compare_both {rt : Runtime} {nT : ℤ} {fmt : BoundaryFormat} {x y : Seg} {a b : BString}
    (ha : toBString fmt x = .ok a) (hb : toBString fmt y = .ok b) (hs : SharedTypes rt a b) :
    (∃ e, compareB rt nT .default fmt x y = .error e ∧ compareS rt nT .default fmt x y = .error e) ∨
    ∃ (c : ℚ) (dB dS : ℕ), compareB rt nT .default fmt x y = .ok (.dec (dB - c), .int dB) ∧
      compareS rt nT .default fmt x y = .ok (.dec (dS - c), .int dS) ∧ 0 ≤ c ∧ c ≤ dB ∧ 0 < dB ∧
      dB ≤ dS ∧ (c = 0 ↔ a = b) ∧ a.length = b.length ∧
      dS = a.length * (identifyTypes a b).card * (identifyTypes a b).card := by
  by_cases ht : (x.truthy && y.truthy) = true
  · simp only [compareB, compareS, if_pos ht]
    cases hst : boundaryStatistics rt fmt nT .default x y with
    | error e =>
      refine Or.inl ⟨e, ?_, ?_⟩
      · simp only [boundarySimilarity, hst]
      · simp only [segmentationSimilarity, hst]
    | ok st =>
      obtain ⟨sa, sb, c, h1, hl, he, hm, hc, c0, c1, c2, c3, hD, hp, hty, hpos⟩ := default_facts hst
      obtain ⟨g1, g2⟩ := toBStrings_parts h1
      rw [ha] at g1; rw [hb] at g2
      cases g1; cases g2
      have e1 := boundarySim_eq (kw := ⟨fmt, false, true, nT, .default⟩) hst hc hD
      have e2 := segmentationSim_eq (kw := ⟨fmt, false, true, nT, .default⟩) hst hc hpos
      simp only [if_true] at e1 e2
      have hcast : st.pbs * (st.boundaryTypes.card : ℤ) =
          ((a.length * (identifyTypes a b).card * (identifyTypes a b).card : ℕ) : ℤ) := by
        rw [hp, hty, hl]; push_cast; rfl
      refine Or.inr ⟨c, editCount st.edits + st.matches'.length,
        a.length * (identifyTypes a b).card * (identifyTypes a b).card, ?_, ?_, c0, ?_, hD, ?_, ?_, hl, rfl⟩
      · rw [e1]
      · rw [e2, hcast]; simp
      · push_cast
        have : (0 : ℚ) ≤ (st.matches'.length : ℚ) := Nat.cast_nonneg _
        linarith
      · have := (edits_pbs (rt := rt) hl hs nT).1
        rw [he, hm, hl]; exact this
      · rw [c2, he, edits_zero_iff hl]
  · exact Or.inl ⟨.segmentationMetricError, by simp only [compareB, if_neg ht],
      by simp only [compareS, if_neg ht]⟩

theorem compareS_same {rt rt' : Runtime} {nT : ℤ} {w : Weights} {fmt : BoundaryFormat}
    {a b a' b' : Seg} (ht : (a.truthy && b.truthy) = (a'.truthy && b'.truthy))
    (h : SameStats (boundaryStatistics rt fmt nT w a b) (boundaryStatistics rt' fmt nT w a' b')) :
    compareS rt nT w fmt a b = compareS rt' nT w fmt a' b' := by
  unfold compareS
  rw [ht]
  by_cases hb : (a'.truthy && b'.truthy) = true
  · rw [if_pos hb, if_pos hb, segmentationSim_same (kw := ⟨fmt, false, true, nT, w⟩) h]
  · rw [if_neg hb, if_neg hb]

theorem compareS_length {rt : Runtime} {nT : ℤ} {w : Weights} {fmt : BoundaryFormat} {sa sb : Seg}
    {a b : BString} {p : PyNum × PyNum} (g1 : toBString fmt sa = .ok a)
    (g2 : toBString fmt sb = .ok b) (h : compareS rt nT w fmt sa sb = .ok p) :
    a.length = b.length := by
  unfold compareS at h
  by_cases ht : (sa.truthy && sb.truthy) = true
  · rw [if_pos ht] at h
    cases hb : segmentationSimilarity rt ⟨fmt, false, true, nT, w⟩ sa sb with
    | error e => rw [hb] at h; cases h
    | ok v =>
      obtain ⟨st, hst⟩ := segmentationSim_stats hb
      obtain ⟨a', b', k1, k2⟩ := boundaryStatistics_ok hst
      obtain ⟨k3, k4⟩ := toBStrings_parts k1
      rw [g1] at k3; cases k3
      rw [g2] at k4; cases k4
      exact (statistics_ok k2).1
  · rw [if_neg ht] at h; cases h

theorem rowsSym_compareS {rt rt' : Runtime} {nT : ℤ} {w : Weights} (hw : Supplied w)
    {fmt : BoundaryFormat} {coders : List Name} {items : Items} (hd : IsDict items)
    (hv : AllValid fmt items) (hs : AllShared rt fmt items) (hs' : AllShared rt' fmt items) :
    RowsSym (compareS rt nT w) (compareS rt' nT w) fmt coders items := by
  rintro m _ n _ _ ⟨label, cs⟩ hit
  have hl := dictGet_of_mem hd.1 hit
  cases h1 : dictGet cs m with
  | none =>
    have e1 : ∀ c, jobRow c fmt ((m, n), (label, cs)) = .error .keyError := by
      intro c; unfold jobRow; simp only [h1]
    have e2 : ∀ c, ∃ e, jobRow c fmt ((n, m), (label, cs)) = .error e := by
      intro c; unfold jobRow; simp only [h1]
      cases dictGet cs n <;> exact ⟨_, rfl⟩
    obtain ⟨e, he⟩ := e2 (compareS rt' nT w)
    rw [e1, e1, he]
    exact ⟨rfl, rfl⟩
  | some sa =>
    cases h2 : dictGet cs n with
    | none =>
      have e1 : ∀ c, jobRow c fmt ((n, m), (label, cs)) = .error .keyError := by
        intro c; unfold jobRow; simp only [h2]
      have e2 : ∀ c, jobRow c fmt ((m, n), (label, cs)) = .error .keyError := by
        intro c; unfold jobRow; simp only [h1, h2]
      rw [e1, e2, e2]
      exact ⟨rfl, rfl⟩
    | some sb =>
      have cm : Coded items label m sa := ⟨cs, hl, h1⟩
      have cn : Coded items label n sb := ⟨cs, hl, h2⟩
      obtain ⟨a, da⟩ := hv _ _ _ cm
      obtain ⟨b, db⟩ := hv _ _ _ cn
      have s1 := hs _ _ _ _ _ _ _ cm cn da db
      have s2 := hs' _ _ _ _ _ _ _ cm cn da db
      have g1 := toBString_denotes da
      have g2 := toBString_denotes db
      have w1 := stats_swap (nT := nT) hw s1 s2
      have w2 := stats_swap (nT := nT) hw (sharedTypes_symm s2) (sharedTypes_symm s2)
      have c1 : compareS rt nT w fmt sa sb = compareS rt' nT w fmt sa sb := by
        refine compareS_same rfl ?_
        rw [boundaryStatistics_denotes da db, boundaryStatistics_denotes da db]
        exact w1.trans w2
      have c2 : compareS rt' nT w fmt sb sa = compareS rt' nT w fmt sa sb := by
        refine compareS_same (Bool.and_comm _ _) ?_
        rw [boundaryStatistics_denotes da db, boundaryStatistics_denotes db da]
        exact w2
      rw [jobRow_value (it := (label, cs)) h1 h2 g1 g2, jobRow_value (it := (label, cs)) h1 h2 g1 g2,
        jobRow_value (it := (label, cs)) h2 h1 g2 g1, c1, c2]
      refine ⟨rfl, ?_⟩
      cases hc : compareS rt' nT w fmt sa sb with
      | error e => rfl
      | ok p =>
        have hlen := compareS_length g1 g2 hc
        simp only [Except.map, Except.toOption, Option.map_some, swapRow, identifyTypes_comm b a, hlen]

/-! ## The rows of both comparisons -/

/-- What the two comparisons contribute for one item and two coders. -/
def RowBoth (rt : Runtime) (nT : ℤ) (fmt : BoundaryFormat) (j : Job) : Prop :=
  (∃ e, jobRow (compareB rt nT .default) fmt j = .error e ∧
    jobRow (compareS rt nT .default) fmt j = .error e) ∨
  ∃ (c : ℚ) (dB dS : ℕ) (a b : BString) (p : ℤ),
    jobRow (compareB rt nT .default) fmt j =
      .ok ⟨.dec (dB - c), .int dB, p, boundaryCount a, boundaryCount b⟩ ∧
    jobRow (compareS rt nT .default) fmt j =
      .ok ⟨.dec (dS - c), .int dS, p, boundaryCount a, boundaryCount b⟩ ∧
    0 ≤ c ∧ c ≤ dB ∧ 0 < dB ∧ dB ≤ dS ∧ (c = 0 ↔ a = b) ∧ a.length = b.length ∧
    (∃ sa sb, dictGet j.2.2 j.1.1 = some sa ∧ dictGet j.2.2 j.1.2 = some sb ∧
      toBString fmt sa = .ok a ∧ toBString fmt sb = .ok b)

theorem rowBoth {rt : Runtime} {nT : ℤ} {fmt : BoundaryFormat} {o : ClassOrder Name} {data : AgrData}
    (hd : IsDict data.items) (hv : AllValid fmt data.items) (hs : AllShared rt fmt data.items)
    {j : Job} (hj : j ∈ jobsOf o data) : RowBoth rt nT fmt j := by
  obtain ⟨⟨m, n⟩, label, cs⟩ := j
  have hit := (mem_jobs.1 hj).2
  have hl := dictGet_of_mem hd.1 hit
  cases h1 : dictGet cs m with
  | none => exact Or.inl ⟨.keyError, by unfold jobRow; simp only [h1], by unfold jobRow; simp only [h1]⟩
  | some sa =>
    cases h2 : dictGet cs n with
    | none =>
      exact Or.inl ⟨.keyError, by unfold jobRow; simp only [h1, h2],
        by unfold jobRow; simp only [h1, h2]⟩
    | some sb =>
      have cm : Coded data.items label m sa := ⟨cs, hl, h1⟩
      have cn : Coded data.items label n sb := ⟨cs, hl, h2⟩
      obtain ⟨a, da⟩ := hv _ _ _ cm
      obtain ⟨b, db⟩ := hv _ _ _ cn
      have g1 := toBString_denotes da
      have g2 := toBString_denotes db
      unfold RowBoth
      rw [jobRow_value (it := (label, cs)) h1 h2 g1 g2, jobRow_value (it := (label, cs)) h1 h2 g1 g2]
      rcases compare_both (nT := nT) g1 g2 (hs _ _ _ _ _ _ _ cm cn da db) with
        ⟨e, e1, e2⟩ | ⟨c, dB, dS, e1, e2, h⟩
      · exact Or.inl ⟨e, by rw [e1]; rfl, by rw [e2]; rfl⟩
      · exact Or.inr ⟨c, dB, dS, a, b, _, by rw [e1]; rfl, by rw [e2]; rfl, h.1, h.2.1, h.2.2.1,
          h.2.2.2.1, h.2.2.2.2.1, h.2.2.2.2.2.1, sa, sb, h1, h2, g1, g2⟩

section
variable {rt : Runtime} {nT : ℤ} {fmt : BoundaryFormat} {js : List Job}

/-- The two comparisons return together. -/
theorem rowsOk_both (h : ∀ j ∈ js, RowBoth rt nT fmt j) :
    RowsOk (compareS rt nT .default) fmt js ↔ RowsOk (compareB rt nT .default) fmt js := by
  refine forall₂_congr (fun j hj => ?_)
  unfold rowD
  rcases h j hj with ⟨e, h1, h2⟩ | ⟨c, dB, dS, a, b, p, h1, h2, _⟩
  · rw [h1, h2]
  · rw [h1, h2]
    exact ⟨fun _ => rfl, fun _ => rfl⟩

theorem rowsAre_segmentation (h : ∀ j ∈ js, RowBoth rt nT fmt j)
    (hok : RowsOk (compareS rt nT .default) fmt js) : RowsAre (compareS rt nT .default) fmt js := by
  intro j hj
  obtain ⟨a', b', hB⟩ := rowsAre_default ((rowsOk_both h).1 hok) j hj
  have hokj := hok j hj
  rcases h j hj with ⟨e, h1, h2⟩ | ⟨c, dB, dS, a, b, p, h1, h2, c0, c1, d0, d1, hc, hl, hcod⟩
  · rw [h2] at hokj; cases hokj
  · have eS : rowD (compareS rt nT .default) fmt j =
        ⟨.dec (dS - c), .int dS, p, boundaryCount a, boundaryCount b⟩ := by simp only [rowD, h2]
    have eB : rowD (compareB rt nT .default) fmt j =
        ⟨.dec (dB - c), .int dB, p, boundaryCount a, boundaryCount b⟩ := by simp only [rowD, h1]
    have hab : a' = a ∧ b' = b := by
      obtain ⟨sa, sb, k1, k2, k3, k4⟩ := hcod
      obtain ⟨sa', sb', k1', k2', k3', k4'⟩ := hB.coded
      rw [k1] at k1'; cases k1'
      rw [k2] at k2'; cases k2'
      rw [k3] at k3'; cases k3'
      rw [k4] at k4'; cases k4'
      exact ⟨rfl, rfl⟩
    obtain ⟨rfl, rfl⟩ := hab
    have hd1 : (dB : ℚ) ≤ dS := by exact_mod_cast d1
    have hd0 : (0 : ℚ) < dB := by exact_mod_cast d0
    refine ⟨a', b', ⟨hcod, hl, ?_, ?_, ?_, ?_, ?_, ?_, ?_, ?_, ?_, ?_⟩⟩
    · rw [eS]; exact ⟨_, rfl⟩
    · rw [eS]; exact ⟨_, rfl⟩
    · rw [eS]; simp only [PyNum.val]; linarith
    · rw [eS]; simp only [PyNum.val]; push_cast; linarith
    · rw [eS]; simp only [PyNum.val]; push_cast; linarith
    · rw [eS, ← hc]; simp only [PyNum.val]; push_cast
      constructor <;> intro h <;> linarith
    · have := hB.pbs; rw [eB] at this; rw [eS]; exact this
    · have := hB.pbs_pos; rw [eB] at this; rw [eS]; exact this
    · rw [eS]
    · rw [eS]

theorem rowsNoFlt_segmentation (h : ∀ j ∈ js, RowBoth rt nT fmt j) :
    RowsNoFlt (compareS rt nT .default) fmt js := by
  intro j hj
  rcases h j hj with ⟨e, h1, h2⟩ | ⟨c, dB, dS, a, b, p, h1, h2, _⟩
  · have : rowD (compareS rt nT .default) fmt j = default := by simp [rowD, h2]
    rw [this]; exact ⟨trivial, trivial⟩
  · have : rowD (compareS rt nT .default) fmt j =
        ⟨.dec (dS - c), .int dS, p, boundaryCount a, boundaryCount b⟩ := by simp [rowD, h2]
    rw [this]; exact ⟨trivial, trivial⟩

/-- Boundary similarity pools to no more than segmentation similarity. -/
theorem numSum_both (h : ∀ j ∈ js, RowBoth rt nT fmt j)
    (hok : RowsOk (compareS rt nT .default) fmt js) (hne : js ≠ []) :
    numSum (compareB rt nT .default) fmt js / denSum (compareB rt nT .default) fmt js ≤
      numSum (compareS rt nT .default) fmt js / denSum (compareS rt nT .default) fmt js := by
  have key : ∀ l : List Job, (∀ j ∈ l, j ∈ js) → ∃ c : ℚ, 0 ≤ c ∧
      numSum (compareB rt nT .default) fmt l = denSum (compareB rt nT .default) fmt l - c ∧
      numSum (compareS rt nT .default) fmt l = denSum (compareS rt nT .default) fmt l - c ∧
      denSum (compareB rt nT .default) fmt l ≤ denSum (compareS rt nT .default) fmt l ∧
      0 ≤ denSum (compareB rt nT .default) fmt l ∧
      (l ≠ [] → 0 < denSum (compareB rt nT .default) fmt l) := by
    intro l
    induction l with
    | nil => exact fun _ => ⟨0, le_rfl, by simp [numSum, denSum]⟩
    | cons j l ih =>
      intro hl
      obtain ⟨c, c0, e1, e2, e3, e4, e5⟩ := ih (fun j hj => hl j (List.mem_cons_of_mem _ hj))
      have hj := hl j List.mem_cons_self
      have hokj := hok j hj
      rcases h j hj with ⟨e, h1, h2⟩ | ⟨c', dB, dS, a, b, p, h1, h2, c0', c1, d0, d1, hc, hlen, hcod⟩
      · rw [h2] at hokj; cases hokj
      · have eS : rowD (compareS rt nT .default) fmt j =
          ⟨.dec (dS - c'), .int dS, p, boundaryCount a, boundaryCount b⟩ := by simp only [rowD, h2]
        have eB : rowD (compareB rt nT .default) fmt j =
          ⟨.dec (dB - c'), .int dB, p, boundaryCount a, boundaryCount b⟩ := by simp only [rowD, h1]
        have hd1 : (dB : ℚ) ≤ dS := by exact_mod_cast d1
        have hd0 : (0 : ℚ) < dB := by exact_mod_cast d0
        have n1 : numSum (compareB rt nT .default) fmt (j :: l) = (dB - c') +
            numSum (compareB rt nT .default) fmt l := by
          rw [numSum, List.map_cons, List.sum_cons, eB]; rfl
        have n2 : numSum (compareS rt nT .default) fmt (j :: l) = (dS - c') +
            numSum (compareS rt nT .default) fmt l := by
          rw [numSum, List.map_cons, List.sum_cons, eS]; rfl
        have n3 : denSum (compareB rt nT .default) fmt (j :: l) = dB +
            denSum (compareB rt nT .default) fmt l := by
          rw [denSum, List.map_cons, List.sum_cons, eB]; simp [PyNum.val, denSum]
        have n4 : denSum (compareS rt nT .default) fmt (j :: l) = dS +
            denSum (compareS rt nT .default) fmt l := by
          rw [denSum, List.map_cons, List.sum_cons, eS]; simp [PyNum.val, denSum]
        rw [n1, n2, n3, n4]
        refine ⟨c + c', by linarith, ?_, ?_, ?_, ?_, fun _ => ?_⟩ <;> linarith
  obtain ⟨c, c0, e1, e2, e3, _, e4⟩ := key js (fun _ h => h)
  have hB := e4 hne
  have hS := hB.trans_le e3
  rw [e1, e2, sub_div, sub_div, div_self hB.ne', div_self hS.ne']
  have := div_le_div_of_nonneg_left c0 hB e3
  linarith

/-- The boundaries are counted alike. -/
theorem rows_counts (h : ∀ j ∈ js, RowBoth rt nT fmt j) {j : Job} (hj : j ∈ js) :
    (rowD (compareS rt nT .default) fmt j).pbs = (rowD (compareB rt nT .default) fmt j).pbs ∧
    (rowD (compareS rt nT .default) fmt j).ba = (rowD (compareB rt nT .default) fmt j).ba ∧
    (rowD (compareS rt nT .default) fmt j).bb = (rowD (compareB rt nT .default) fmt j).bb := by
  unfold rowD
  rcases h j hj with ⟨e, h1, h2⟩ | ⟨c, dB, dS, a, b, p, h1, h2, _⟩ <;> rw [h1, h2] <;> simp

theorem piAe_both (h : ∀ j ∈ js, RowBoth rt nT fmt j) :
    piAe (compareS rt nT .default) fmt js = piAe (compareB rt nT .default) fmt js := by
  rw [piAe_eq, piAe_eq]
  congr 3
  apply List.map_congr_left
  intro j hj
  obtain ⟨h1, h2, h3⟩ := rows_counts h hj
  rw [h1, h2, h3]

theorem tallyOf_both (h : ∀ j ∈ js, RowBoth rt nT fmt j) (c : Name) :
    tallyOf (compareS rt nT .default) fmt js c = tallyOf (compareB rt nT .default) fmt js c := by
  rw [tallyOf_eq, tallyOf_eq]
  congr 2 <;> apply List.map_congr_left <;> intro j hj <;> obtain ⟨h1, h2, h3⟩ := rows_counts h hj
  · rw [h2, h3]
  · rw [h1]

theorem kappaAe_both (h : ∀ j ∈ js, RowBoth rt nT fmt j) (coders : List Name) :
    kappaAe (compareS rt nT .default) fmt coders js = kappaAe (compareB rt nT .default) fmt coders js := by
  unfold kappaAe
  congr 2
  exact List.map_congr_left (fun c _ => tallyOf_both h c)

end

end SegEval
