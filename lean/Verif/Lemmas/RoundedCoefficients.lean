import Verif.Lemmas.RoundedParts

/-!
# Fleiss' pi and kappa with rounding, beside the exact ones
-/

namespace SegEval

open Spec

/-- An exact and a rounded computation of agreement. -/
structure AgrPair (ρ : Rounding) (rt : Runtime) (nT : ℤ) (o : ClassOrder Name) (kw : BoundaryFormat)
    (data : AgrData) (l : List (Comparison × Job)) (p p' : AgrParts) : Prop where
  parts : PartsPair ρ nT (agrFormat kw data) l p p'
  exactOk : agreementParts (compareB rt nT .default) (agrFormat kw data)
    (o.order [] (getCoders data)) data.items = .ok p
  roundedOk : agreementParts (compareBR ρ rt nT (.defaultR ρ)) (agrFormat kw data)
    (o.order [] (getCoders data)) data.items = .ok p'
  jobs : l.map Prod.snd = jobsOf o data

theorem agrPair (ρ : Rounding) (rt : Runtime) (nT : ℤ) (o : ClassOrder Name) (kw : BoundaryFormat)
    (data : AgrData) :
    (∃ e, agreementParts (compareB rt nT .default) (agrFormat kw data)
        (o.order [] (getCoders data)) data.items = .error e ∧
      agreementParts (compareBR ρ rt nT (.defaultR ρ)) (agrFormat kw data)
        (o.order [] (getCoders data)) data.items = .error e) ∨
    ∃ l p p', AgrPair ρ rt nT o kw data l p p' := by
  rcases agreementPartsR_pair ρ rt nT (agrFormat kw data) (o.order [] (getCoders data)) data.items
    with h | ⟨ts, p, p', hl, h1, h2, h3⟩
  · exact .inl h
  · exact .inr ⟨_, p, p', h3, h1, h2, List.map_snd_zip (le_of_eq hl.symm)⟩

theorem fold_pbs (cmp : Compare) (fmt : BoundaryFormat) (js : List Job) (acc : AgrParts) :
    (js.foldl (fun acc j => pushRow j.1.1 j.1.2 acc (rowD cmp fmt j)) acc).pbs =
      acc.pbs ++ js.map (fun j => (rowD cmp fmt j).pbs) := by
  induction js generalizing acc with
  | nil => simp
  | cons j js ih =>
    rw [List.foldl_cons, ih]
    simp [pushRow]

section

variable {ρ : Rounding} {rt : Runtime} {nT : ℤ} {o : ClassOrder Name} {kw : BoundaryFormat}
  {data : AgrData} {l : List (Comparison × Job)} {p p' : AgrParts}

/-- The exact comparison. -/
local notation "cmpE" => compareB rt nT Weights.default

theorem AgrPair.partsOf_eq (h : AgrPair ρ rt nT o kw data l p p') :
    RowsOk cmpE (agrFormat kw data) (jobsOf o data) ∧
      p = partsOf cmpE (agrFormat kw data) (jobsOf o data) :=
  (agreementParts_ok _ _ _ _ _).1 h.exactOk

theorem AgrPair.rows (h : AgrPair ρ rt nT o kw data l p p') :
    RowsAre cmpE (agrFormat kw data) (jobsOf o data) := rowsAre_default h.partsOf_eq.1

theorem AgrPair.flat_perm (h : AgrPair ρ rt nT o kw data l p p') :
    (p.codersBoundaries.flatMap Prod.snd).Perm
      ((jobsOf o data).flatMap (entriesOf cmpE (agrFormat kw data))) := by
  rw [h.partsOf_eq.2]
  have := fold_flat cmpE (agrFormat kw data) (jobsOf o data) {}
  simpa [partsOf] using this

theorem AgrPair.length_jobs (h : AgrPair ρ rt nT o kw data l p p') :
    (jobsOf o data).length = l.length := by rw [← h.jobs, List.length_map]

theorem AgrPair.flat_length (h : AgrPair ρ rt nT o kw data l p p') :
    (p.codersBoundaries.flatMap Prod.snd).length = 2 * l.length := by
  rw [h.flat_perm.length_eq, List.length_flatMap, ← h.length_jobs]
  simp [entriesOf, mul_comm]

theorem AgrPair.flat_rates (h : AgrPair ρ rt nT o kw data l p p') :
    Rates (p.codersBoundaries.flatMap Prod.snd) := fun q hq =>
  entries_unit h.rows q (h.flat_perm.mem_iff.1 hq)

theorem AgrPair.pbs_eq (h : AgrPair ρ rt nT o kw data l p p') :
    p.pbs = (jobsOf o data).map (fun j => (rowD cmpE (agrFormat kw data) j).pbs) := by
  rw [h.partsOf_eq.2]
  have := fold_pbs cmpE (agrFormat kw data) (jobsOf o data) {}
  simpa [partsOf] using this

theorem AgrPair.pbs_pos (h : AgrPair ρ rt nT o kw data l p p') :
    ∀ j ∈ jobsOf o data, 0 < (rowD cmpE (agrFormat kw data) j).pbs := fun j hj =>
  (entries_unit h.rows ((rowD cmpE (agrFormat kw data) j).ba, (rowD cmpE (agrFormat kw data) j).pbs)
    (List.mem_flatMap.2 ⟨j, hj, by simp [entriesOf]⟩)).2.2

theorem AgrPair.flat_pbs (h : AgrPair ρ rt nT o kw data l p p') :
    ∀ q ∈ p.codersBoundaries.flatMap Prod.snd, q.2 ≤ p.pbs.sum := by
  intro q hq
  obtain ⟨j, hj, hq⟩ := List.mem_flatMap.1 (h.flat_perm.mem_iff.1 hq)
  have hle : (rowD cmpE (agrFormat kw data) j).pbs ≤ p.pbs.sum := by
    rw [h.pbs_eq]
    refine List.single_le_sum ?_ _ (List.mem_map.2 ⟨j, hj, rfl⟩)
    intro x hx
    obtain ⟨i, hi, rfl⟩ := List.mem_map.1 hx
    exact (h.pbs_pos i hi).le
  simp only [entriesOf, List.mem_cons, List.not_mem_nil, or_false] at hq
  rcases hq with rfl | rfl <;> exact hle

theorem tally_share_le (cmp : Compare) (fmt : BoundaryFormat) (js : List Job) (c : Name)
    (h : ∀ j ∈ js, 0 < (rowD cmp fmt j).pbs) :
    (tally (js.flatMap (share cmp fmt c))).2 ≤ 2 * (js.map fun j => (rowD cmp fmt j).pbs).sum := by
  induction js with
  | nil => simp [tally]
  | cons j js ih =>
    have h1 := ih (fun i hi => h i (by simp [hi]))
    have h2 := h j (by simp)
    have h3 : ((share cmp fmt c j).map Prod.snd).sum ≤ 2 * (rowD cmp fmt j).pbs := by
      unfold share
      split_ifs <;> simp <;> omega
    simp only [tally, List.flatMap_cons, List.map_append, List.sum_append, List.map_cons,
      List.sum_cons] at h1 ⊢
    omega

theorem AgrPair.cb_perm (h : AgrPair ρ rt nT o kw data l p p') (hne : l ≠ []) :
    (p.codersBoundaries.map fun e => tally e.2).Perm
      ((o.order [] (getCoders data)).map
        (tallyOf cmpE (agrFormat kw data) (jobsOf o data))) := by
  have hj : jobsOf o data ≠ [] := by
    intro h0; have := h.length_jobs; rw [h0] at this; exact hne (List.length_eq_zero_iff.1 this.symm)
  rw [h.partsOf_eq.2]
  have := (SegEval.cb_perm (cmp := cmpE) (fmt := agrFormat kw data) hj (o.nodup [] _)).map
    (fun e => tally e.2)
  rw [List.map_map] at this
  exact this

theorem AgrPair.jobs_ne (h : AgrPair ρ rt nT o kw data l p p') (hne : l ≠ []) :
    jobsOf o data ≠ [] := by
  intro h0; have := h.length_jobs; rw [h0] at this; exact hne (List.length_eq_zero_iff.1 this.symm)

theorem AgrPair.tally_rates (h : AgrPair ρ rt nT o kw data l p p') (hne : l ≠ []) :
    Rates (p.codersBoundaries.map fun e => tally e.2) := by
  intro q hq
  obtain ⟨c, hc, rfl⟩ := List.mem_map.1 ((h.cb_perm hne).mem_iff.1 hq)
  obtain ⟨h1, h2, h3, -⟩ := tallyOf_unit h.rows (h.jobs_ne hne) hc
  exact ⟨h1, h2, h3⟩

theorem AgrPair.tally_pbs (h : AgrPair ρ rt nT o kw data l p p') (hne : l ≠ []) :
    ∀ q ∈ p.codersBoundaries.map fun e => tally e.2, q.2 ≤ 2 * p.pbs.sum := by
  intro q hq
  obtain ⟨c, hc, rfl⟩ := List.mem_map.1 ((h.cb_perm hne).mem_iff.1 hq)
  rw [h.pbs_eq]
  exact tally_share_le cmpE (agrFormat kw data) (jobsOf o data) c h.pbs_pos

theorem AgrPair.cb_length (h : AgrPair ρ rt nT o kw data l p p') (hne : l ≠ []) :
    p.codersBoundaries.length = (o.order [] (getCoders data)).length := by
  simpa using (h.cb_perm hne).length_eq

theorem jobsR_length (coders : List Name) (items : Items) :
    (jobs coders items).length = (combinations2 coders).length * items.length := by
  simp [jobs, List.length_flatMap]

theorem AgrPair.combos_le (h : AgrPair ρ rt nT o kw data l p p') (hne : l ≠ []) :
    2 ≤ p.codersBoundaries.length ∧
      (combinations2 (p.codersBoundaries.map fun e => tally e.2)).length ≤ l.length := by
  obtain ⟨h1, h2⟩ := jobs_ne_nil.1 (h.jobs_ne hne)
  refine ⟨by rw [h.cb_length hne]; exact h1, ?_⟩
  rw [← h.length_jobs, jobsOf, jobsR_length, length_combinations2, length_combinations2,
    List.length_map, h.cb_length hne]
  exact Nat.le_mul_of_pos_right _ (List.length_pos_iff.2 h2)

/-! ## The computations -/

theorem decimalActualR_dec (ρ : Rounding) {l : List (Comparison × Job)} {p : AgrParts}
    (hg : ∀ t ∈ l, t.1.Good nT) (hne : l ≠ [])
    (h1 : p.numerators = l.map fun t => .dec (t.1.num ρ.dec nT))
    (h2 : p.denominators = l.map fun t => .int t.1.den) :
    decimalActualR ρ p = .ok (.dec (aaOf ρ.dec nT l)) ∧
      actualOfPartsR ρ p = .ok (.dec (aaOf ρ.dec nT l)) := by
  have e1 : pySumR ρ p.numerators = .ok (.dec (roundedSum ρ.dec 0
      (l.map fun t => t.1.num ρ.dec nT))) := by
    rw [h1, ← pySumR_dec ρ _ (by simpa using hne), List.map_map]; rfl
  have e2 : pySumR ρ p.denominators = .ok (.int (denTotal l : ℕ)) := by
    rw [h2, show (l.map fun t => PyNum.int (t.1.den : ℕ)) =
      (l.map fun t => ((t.1.den : ℕ) : ℤ)).map PyNum.int by rw [List.map_map]; rfl, pySumR_int]
    congr 2
    unfold denTotal
    push_cast
    rw [List.map_map]; rfl
  have hpos : ((denTotal l : ℕ) : ℤ) ≠ 0 := by exact_mod_cast (denTotal_pos hg hne).ne'
  unfold decimalActualR actualOfPartsR
  rw [e1, e2]
  simp only [PyNum.toDecimal, PyNum.val]
  rw [truedivR_dec_int ρ _ hpos]
  simp [aaOf]

theorem decimalActualR_nil (ρ : Rounding) {p : AgrParts} (h1 : p.numerators = [])
    (h2 : p.denominators = []) : decimalActualR ρ p = .error .decimalInvalidOperation ∧
      actualOfPartsR ρ p = .error .zeroDivisionError := by
  unfold decimalActualR actualOfPartsR
  rw [h1, h2]
  simp [pySumR, forLoop, PyNum.truedivR, PyNum.truediv, PyNum.decDiv, PyNum.fltDiv,
      PyNum.toDecimal, PyNum.val]

theorem finishAgreementR_eq (ρ : Rounding) (rp : Bool) (a e : ℚ) :
    finishAgreementR ρ rp (.dec a) (.dec e) =
      if ρ.dec (1 - e) = 0 then
        .error (if ρ.dec (a - e) = 0 then .decimalInvalidOperation else .decimalDivisionByZero)
      else .ok (if rp then .parts (.dec a) (.dec e)
        else .value (.dec (ρ.dec (ρ.dec (a - e) / ρ.dec (1 - e))))) := by
  unfold finishAgreementR chanceCorrectR
  simp only [subR_dec, PyNum.truedivR, PyNum.truediv, PyNum.decDiv]
  by_cases h : ρ.dec (1 - e) = 0
  · simp only [h, if_true]
    by_cases h' : ρ.dec (a - e) = 0 <;> simp [h']
  · simp only [h, if_false, PyNum.rnd]
    cases rp <;> rfl

/-- What the exact and the rounded Fleiss' pi compute. -/
theorem fleissPiR_pair (ρ : Rounding) (rt : Runtime) (nT : ℤ) (o : ClassOrder Name)
    (kw : BoundaryFormat) (data : AgrData) :
    (∃ e, ∀ rp, fleissPi o (compareB rt nT .default) kw rp data = .error e ∧
      fleissPiR ρ o (compareBR ρ rt nT (.defaultR ρ)) kw rp data = .error e) ∨
    ∃ l p p', AgrPair ρ rt nT o kw data l p p' ∧ l ≠ [] ∧ ∀ rp,
      fleissPi o (compareB rt nT .default) kw rp data =
        finishAgreementR .exact rp (.dec (aaOf id nT l))
          (.dec (exactPiAe (p.codersBoundaries.flatMap Prod.snd))) ∧
      fleissPiR ρ o (compareBR ρ rt nT (.defaultR ρ)) kw rp data =
        finishAgreementR ρ rp (.dec (aaOf ρ.dec nT l))
          (.dec (roundedPiAe ρ (p.codersBoundaries.flatMap Prod.snd))) := by
  rw [← fleissPiR_exact]
  unfold fleissPiR
  by_cases hq : equalCodings data.items = false
  · exact .inl ⟨.genericException, fun rp => by simp [hq]⟩
  · simp only [hq]
    rcases agrPair ρ rt nT o kw data with ⟨e, h1, h2⟩ | ⟨l, p, p', h⟩
    · exact .inl ⟨e, fun rp => by simp [h1, h2]⟩
    · rw [h.exactOk, h.roundedOk]
      simp only
      by_cases hne : l = []
      · subst hne
        have e1 := (decimalActualR_nil .exact h.parts.num h.parts.den).1
        have e2 := (decimalActualR_nil ρ h.parts.numR h.parts.denR).1
        exact .inl ⟨.decimalInvalidOperation, fun rp => by simp [e1, e2]⟩
      · have e1 := (decimalActualR_dec .exact h.parts.good hne h.parts.num h.parts.den).1
        have e2 := (decimalActualR_dec ρ h.parts.good hne h.parts.numR h.parts.denR).1
        have hflat : p.codersBoundaries.flatMap Prod.snd ≠ [] := by
          rw [← List.length_pos_iff, h.flat_length]
          have := List.length_pos_iff.2 hne
          omega
        have hz : ∀ q ∈ p.codersBoundaries.flatMap Prod.snd, q.2 ≠ 0 := fun q hq =>
          (h.flat_rates q hq).2.2.ne'
        have e3 := (piExpectedR_ok .exact p.codersBoundaries _).2 ⟨hflat, hz, rfl⟩
        have e4 := (piExpectedR_ok ρ p.codersBoundaries _).2 ⟨hflat, hz, rfl⟩
        rw [roundedPiAe_exact] at e3
        refine .inr ⟨l, p, p', h, hne, fun rp => ?_⟩
        rw [h.parts.cb, e1, e2, e3, e4]
        exact ⟨rfl, rfl⟩

/-- What the exact and the rounded Fleiss' kappa compute. -/
theorem fleissKappaR_pair (ρ : Rounding) (rt : Runtime) (nT : ℤ) (o : ClassOrder Name)
    (kw : BoundaryFormat) (data : AgrData) :
    (∃ e, ∀ rp, fleissKappa o (compareB rt nT .default) kw rp data = .error e ∧
      fleissKappaR ρ o (compareBR ρ rt nT (.defaultR ρ)) kw rp data = .error e) ∨
    ∃ l p p', AgrPair ρ rt nT o kw data l p p' ∧ l ≠ [] ∧ ∀ rp,
      fleissKappa o (compareB rt nT .default) kw rp data =
        finishAgreementR .exact rp (.dec (aaOf id nT l))
          (.dec (exactKappaAe (p.codersBoundaries.map fun e => tally e.2))) ∧
      fleissKappaR ρ o (compareBR ρ rt nT (.defaultR ρ)) kw rp data =
        finishAgreementR ρ rp (.dec (aaOf ρ.dec nT l))
          (.dec (roundedKappaAe ρ (p.codersBoundaries.map fun e => tally e.2))) := by
  rw [← fleissKappaR_exact]
  unfold fleissKappaR
  by_cases hq2 : (data.items.filter (fun it => decide (it.2.length < 2))).length > 0
  · exact .inl ⟨.genericException, fun rp => by simp only [hq2, if_true, and_self]⟩
  simp only [hq2, if_false]
  by_cases hq : equalCodings data.items = false
  · exact .inl ⟨.genericException, fun rp => by simp [hq]⟩
  · simp only [hq]
    rcases agrPair ρ rt nT o kw data with ⟨e, h1, h2⟩ | ⟨l, p, p', h⟩
    · exact .inl ⟨e, fun rp => by simp [h1, h2]⟩
    · rw [h.exactOk, h.roundedOk]
      simp only
      by_cases hne : l = []
      · subst hne
        have e1 := (decimalActualR_nil .exact h.parts.num h.parts.den).1
        have e2 := (decimalActualR_nil ρ h.parts.numR h.parts.denR).1
        exact .inl ⟨.decimalInvalidOperation, fun rp => by simp [e1, e2]⟩
      · have e1 := (decimalActualR_dec .exact h.parts.good hne h.parts.num h.parts.den).1
        have e2 := (decimalActualR_dec ρ h.parts.good hne h.parts.numR h.parts.denR).1
        have h2 := (h.combos_le hne).1
        have hz : ∀ e ∈ p.codersBoundaries, (tally e.2).2 ≠ 0 := fun e he =>
          (h.tally_rates hne (tally e.2) (List.mem_map.2 ⟨e, he, rfl⟩)).2.2.ne'
        have e3 := (kappaExpectedR_ok .exact p.codersBoundaries _).2 ⟨h2, hz, rfl⟩
        have e4 := (kappaExpectedR_ok ρ p.codersBoundaries _).2 ⟨h2, hz, rfl⟩
        rw [roundedKappaAe_exact] at e3
        refine .inr ⟨l, p, p', h, hne, fun rp => ?_⟩
        rw [h.parts.cb, e1, e2, e3, e4]
        exact ⟨rfl, rfl⟩

/-- What the exact and the rounded actual agreement compute. -/
theorem actualAgreementR_pair (ρ : Rounding) (rt : Runtime) (nT : ℤ) (o : ClassOrder Name)
    (kw : BoundaryFormat) (data : AgrData) :
    (∃ e, actualAgreement o (compareB rt nT .default) kw data = .error e ∧
      actualAgreementR ρ o (compareBR ρ rt nT (.defaultR ρ)) kw data = .error e) ∨
    ∃ l p p', AgrPair ρ rt nT o kw data l p p' ∧ l ≠ [] ∧
      actualAgreement o (compareB rt nT .default) kw data = .ok (.dec (aaOf id nT l)) ∧
      actualAgreementR ρ o (compareBR ρ rt nT (.defaultR ρ)) kw data =
        .ok (.dec (aaOf ρ.dec nT l)) := by
  rw [← actualAgreementR_exact]
  unfold actualAgreementR
  rcases agrPair ρ rt nT o kw data with ⟨e, h1, h2⟩ | ⟨l, p, p', h⟩
  · exact .inl ⟨e, by simp [h1, h2]⟩
  · rw [h.exactOk, h.roundedOk]
    simp only
    by_cases hne : l = []
    · subst hne
      have e1 := (decimalActualR_nil .exact h.parts.num h.parts.den).2
      have e2 := (decimalActualR_nil ρ h.parts.numR h.parts.denR).2
      exact .inl ⟨.zeroDivisionError, e1, e2⟩
    · have e1 := (decimalActualR_dec .exact h.parts.good hne h.parts.num h.parts.den).2
      have e2 := (decimalActualR_dec ρ h.parts.good hne h.parts.numR h.parts.denR).2
      exact .inr ⟨l, p, p', h, hne, e1, e2⟩

end

end SegEval
