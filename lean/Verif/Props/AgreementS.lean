import Verif.Lemmas.AgreementS
import Verif.Props.Agreement

/-!
# C95, C96: agreement measured with segmentation similarity

`fnc_compare=segmentation_similarity` (docs/user/quickstart.rst) in place of the default boundary
similarity.
-/

namespace SegEval.Props

open SegEval Spec

/-- Boundary types are integers of one format, or equal ones are the same object. -/
def TypesShared (rt : Runtime) (kw : BoundaryFormat) (data : AgrData) : Prop :=
  agrFormat kw data ≠ .sets ∨ AllShared rt (agrFormat kw data) data.items

theorem TypesShared.all {rt : Runtime} {kw : BoundaryFormat} {data : AgrData}
    (h : TypesShared rt kw data) : AllShared rt (agrFormat kw data) data.items :=
  h.elim (fun h => allShared_of h) (fun h => h)

section
variable {o : ClassOrder Name} {rt : Runtime} {nT : ℤ} {kw : BoundaryFormat} {data : AgrData}

theorem rowBoth_all (hd : IsDict data.items) (hv : AllValid (agrFormat kw data) data.items)
    (hs : TypesShared rt kw data) : ∀ j ∈ jobsOf o data, RowBoth rt nT (agrFormat kw data) j :=
  fun _ hj => rowBoth hd hv hs.all hj

/-! ## C95 -/

/-- C95: actual agreement lies between 0 and 1, and is 1 exactly if in every item all coders place the
same boundaries. -/
theorem C95_actual {x : PyNum} (hd : IsDict data.items) (hc : CodersMatch data)
    (hv : AllValid (agrFormat kw data) data.items) (hs : TypesShared rt kw data)
    (h : actualAgreement o (compareS rt nT .default) kw data = .ok x) :
    0 ≤ x.val ∧ x.val ≤ 1 ∧ (x.val = 1 ↔ CompleteAgreement (agrFormat kw data) data.items) := by
  have hb := rowBoth_all (o := o) (nT := nT) hd hv hs
  obtain ⟨h1, h2⟩ := (actual_ok x).1 h
  obtain ⟨h3, h4⟩ := actualOfParts_ok (rowsNoFlt_segmentation hb) h2
  have hr := rowsAre_segmentation hb h1
  obtain ⟨_, u1, u2, u3⟩ := actual_unit hr (denSum_nil h3)
  rw [h4]
  exact ⟨u1, u2, u3.trans (complete_iff hd hc hv hr)⟩

/-- C95: actual agreement is the mean of the segmentation similarities of all pairs of coders over all
items, each weighed by the number of positions times the square of the number of boundary types that
either coder uses. -/
theorem C95_weighted {x : PyNum} (hd : IsDict data.items)
    (hv : AllValid (agrFormat kw data) data.items) (hs : TypesShared rt kw data)
    {W S : Name → Name → Name → ℚ}
    (hW : ∀ label m n sm sn bm bn, Coded data.items label m sm → Coded data.items label n sn →
      Denotes (agrFormat kw data) sm bm → Denotes (agrFormat kw data) sn bn →
      ∃ types : Finset ℤ, (∀ t, t ∈ types ↔ UsesType bm bn t) ∧
        W label m n = bm.length * types.card ^ 2)
    (hS : ∀ label m n sm sn y, Coded data.items label m sm → Coded data.items label n sn →
      Returns (segmentationSimilarity rt ⟨agrFormat kw data, false, false, nT, .default⟩ sm sn) y →
        S label m n = y)
    (h : actualAgreement o (compareS rt nT .default) kw data = .ok x) :
    x.val = (∑ m ∈ getCoders data, ∑ n ∈ (getCoders data).erase m,
        (data.items.map (fun it => W it.1 m n * S it.1 m n)).sum) /
      ∑ m ∈ getCoders data, ∑ n ∈ (getCoders data).erase m,
        (data.items.map (fun it => W it.1 m n)).sum := by
  have hb := rowBoth_all (o := o) (nT := nT) hd hv hs
  obtain ⟨h1, h2⟩ := (actual_ok x).1 h
  rw [(actualOfParts_ok (rowsNoFlt_segmentation hb) h2).2]
  refine pooled_form (N := fun l m n => W l m n * S l m n) (D := W) hd ?_ h1
    (rowsSym_compareS ⟨rfl, Or.inr rfl, Or.inr rfl⟩ hd hv hs.all hs.all)
  intro label m n sm sn num den cm cn hcmp
  obtain ⟨bm, dm⟩ := hv _ _ _ cm
  obtain ⟨bn, dn⟩ := hv _ _ _ cn
  obtain ⟨types, t1, t2⟩ := hW _ _ _ _ _ _ _ cm cn dm dn
  have ht : types = identifyTypes bm bn := by ext t; rw [t1, mem_identifyTypes]
  unfold compareS at hcmp
  by_cases htr : (sm.truthy && sn.truthy) = true
  · rw [if_pos htr] at hcmp
    cases hst : boundaryStatistics rt (agrFormat kw data) nT .default sm sn with
    | error e => simp only [segmentationSimilarity, hst] at hcmp; cases hcmp
    | ok st =>
      obtain ⟨a, b, c, g1, hl, he, hm, hc, c0, c1, c2, c3, hD, hp, hty, hpos⟩ := default_facts hst
      rw [toBStrings_denotes dm dn] at g1
      cases g1
      have e1 := segmentationSim_eq (kw := ⟨agrFormat kw data, false, true, nT, .default⟩) hst hc hpos
      have e2 := segmentationSim_eq (kw := ⟨agrFormat kw data, false, false, nT, .default⟩) hst hc hpos
      simp only [if_true, Bool.false_eq_true, if_false] at e1 e2
      rw [e1] at hcmp
      cases hcmp
      have hy := hS _ _ _ _ _ _ cm cn ⟨_, e2, rfl⟩
      have hw : W label m n = ((st.pbs * (st.boundaryTypes.card : ℤ) : ℤ) : ℚ) := by
        rw [t2, hp, hty, ht, hl]; push_cast; ring
      have hpos' : ((st.pbs * (st.boundaryTypes.card : ℤ) : ℤ) : ℚ) ≠ 0 := by
        exact_mod_cast hpos.ne'
      refine ⟨?_, hw⟩
      simp only [hy, hw, PyNum.val]
      rw [mul_div_cancel₀ _ hpos']
  · rw [if_neg htr] at hcmp; cases hcmp

/-- C95: nor does it depend on the order in which the coder set is enumerated, on the order of items
and codings, nor on any set order inside the comparison. -/
theorem C95_order (o o' : ClassOrder Name) (rt rt' : Runtime) (nT : ℤ) (w : Weights)
    (hw : Supplied w) (kw : BoundaryFormat) (d d' : AgrData) (hsd : SameData d d')
    (hd : IsDict d.items) (hv : AllValid (agrFormat kw d) d.items)
    (hs : TypesShared rt kw d) (hs' : TypesShared rt' kw d) :
    (∀ x, actualAgreement o (compareS rt nT w) kw d = .ok x ↔
      actualAgreement o' (compareS rt' nT w) kw d' = .ok x) ∧
    (∀ rp x, fleissPi o (compareS rt nT w) kw rp d = .ok x ↔
      fleissPi o' (compareS rt' nT w) kw rp d' = .ok x) ∧
    (∀ rp x, fleissKappa o (compareS rt nT w) kw rp d = .ok x ↔
      fleissKappa o' (compareS rt' nT w) kw rp d' = .ok x) := by
  have hsj : SameJobs (compareS rt nT w) (compareS rt' nT w) (agrFormat kw d) (jobsOf o d)
      (jobsOf o' d') := sameJobs hsd hd (rowsSym_compareS hw hd hv hs.all hs'.all)
  have hf := sameData_format hsd kw
  have he := rearranged_equalCodings (sameData_items hsd) hd
  have hc := sameData_coders hsd hd
  have hl := sameData_two hsd hd
  exact ⟨fun x => ⟨actual_transfer hsj hf, actual_transfer (hf ▸ hsj.symm) hf.symm⟩,
    fun rp x => ⟨pi_transfer hsj hf he, pi_transfer (hf ▸ hsj.symm) hf.symm he.symm⟩,
    fun rp x => ⟨kappa_transfer hsj hf he hl hc,
      kappa_transfer (hf ▸ hsj.symm) hf.symm he.symm hl.symm hc.symm⟩⟩

/-- C95: whenever Fleiss' pi returns, actual agreement is defined; pi is the actual agreement corrected
for the expected agreement it reports, which is in [0, 1); pi never exceeds actual agreement, and is 1
exactly under complete agreement. -/
theorem C95_pi {out : AgrOut} (hd : IsDict data.items) (hc : CodersMatch data)
    (hv : AllValid (agrFormat kw data) data.items) (hs : TypesShared rt kw data)
    (h : fleissPi o (compareS rt nT .default) kw false data = .ok out) :
    ∃ v x : PyNum, ∃ ae : ℚ, out = .value v ∧
      actualAgreement o (compareS rt nT .default) kw data = .ok x ∧
      fleissPi o (compareS rt nT .default) kw true data = .ok (.parts (.dec x.val) (.dec ae)) ∧
      0 ≤ ae ∧ ae < 1 ∧ v.val = (x.val - ae) / (1 - ae) ∧ v.val ≤ x.val ∧ v.val ≤ 1 ∧
      (v.val = 1 ↔ CompleteAgreement (agrFormat kw data) data.items) := by
  have hb := rowBoth_all (o := o) (nT := nT) hd hv hs
  have hn := rowsNoFlt_segmentation hb
  obtain ⟨g1, g2, g3, g4, g5, g6⟩ := (fleissPi_ok hn false out).1 h
  have hr := rowsAre_segmentation hb g2
  obtain ⟨x, hx⟩ := (actualOfParts_defined hn).2 g3
  obtain ⟨_, hxv⟩ := actualOfParts_ok hn hx
  obtain ⟨_, u1, u2, u3⟩ := actual_unit hr (denSum_nil g3)
  obtain ⟨p0, p1, p2⟩ := pi_unit hr (denSum_nil g3)
  have p1' := lt_of_le_of_ne p1 g5
  obtain ⟨c1, c2⟩ := chance_le u2 p0 p1'
  refine ⟨_, x, _, g6, (actual_ok x).2 ⟨g2, hx⟩, ?_, p0, p1', ?_, ?_, ?_, ?_⟩
  · rw [hxv]; exact (fleissPi_ok hn true _).2 ⟨g1, g2, g3, g4, g5, rfl⟩
  · rw [hxv]; rfl
  · rw [hxv]; exact c1
  · exact c1.trans u2
  · exact c2.trans (u3.trans (complete_iff hd hc hv hr))

/-- C95: the same for Fleiss' kappa. -/
theorem C95_kappa {out : AgrOut} (hd : IsDict data.items) (hc : CodersMatch data)
    (hv : AllValid (agrFormat kw data) data.items) (hs : TypesShared rt kw data)
    (h : fleissKappa o (compareS rt nT .default) kw false data = .ok out) :
    ∃ v x : PyNum, ∃ ae : ℚ, out = .value v ∧
      actualAgreement o (compareS rt nT .default) kw data = .ok x ∧
      fleissKappa o (compareS rt nT .default) kw true data = .ok (.parts (.dec x.val) (.dec ae)) ∧
      0 ≤ ae ∧ ae < 1 ∧ v.val = (x.val - ae) / (1 - ae) ∧ v.val ≤ x.val ∧ v.val ≤ 1 ∧
      (v.val = 1 ↔ CompleteAgreement (agrFormat kw data) data.items) := by
  have hb := rowBoth_all (o := o) (nT := nT) hd hv hs
  have hn := rowsNoFlt_segmentation hb
  obtain ⟨g0, g1, g2, g3, g4, g5, g6⟩ := (fleissKappa_ok hn false out).1 h
  have hr := rowsAre_segmentation hb g2
  obtain ⟨x, hx⟩ := (actualOfParts_defined hn).2 g3
  obtain ⟨_, hxv⟩ := actualOfParts_ok hn hx
  obtain ⟨_, u1, u2, u3⟩ := actual_unit hr (denSum_nil g3)
  obtain ⟨p0, p1, p2⟩ := kappa_unit hr (denSum_nil g3)
  have p1' := lt_of_le_of_ne p1 g5
  obtain ⟨c1, c2⟩ := chance_le u2 p0 p1'
  refine ⟨_, x, _, g6, (actual_ok x).2 ⟨g2, hx⟩, ?_, p0, p1', ?_, ?_, ?_, ?_⟩
  · rw [hxv]; exact (fleissKappa_ok hn true _).2 ⟨g0, g1, g2, g3, g4, g5, rfl⟩
  · rw [hxv]; rfl
  · rw [hxv]; exact c1
  · exact c1.trans u2
  · exact c2.trans (u3.trans (complete_iff hd hc hv hr))

/-! ## C96 -/

/-- C96: actual agreement is defined for one comparison exactly if it is for the other, and is never
lower with segmentation similarity. -/
theorem C96_actual (hd : IsDict data.items) (hv : AllValid (agrFormat kw data) data.items)
    (hs : TypesShared rt kw data) :
    ((∃ y, actualAgreement o (compareS rt nT .default) kw data = .ok y) ↔
      ∃ x, actualAgreement o (compareB rt nT .default) kw data = .ok x) ∧
    ∀ x y, actualAgreement o (compareB rt nT .default) kw data = .ok x →
      actualAgreement o (compareS rt nT .default) kw data = .ok y → x.val ≤ y.val := by
  have hb := rowBoth_all (o := o) (nT := nT) hd hv hs
  have hnS := rowsNoFlt_segmentation hb
  have hnB := rowsNoFlt_default rt nT (agrFormat kw data) (jobsOf o data)
  constructor
  · constructor
    · rintro ⟨y, hy⟩
      obtain ⟨h1, h2⟩ := (actual_ok y).1 hy
      have hB := (rowsOk_both hb).1 h1
      have hne := denSum_nil (actualOfParts_ok hnS h2).1
      obtain ⟨x, hx⟩ := (actualOfParts_defined hnB).2 (actual_unit (rowsAre_default hB) hne).1.ne'
      exact ⟨x, (actual_ok x).2 ⟨hB, hx⟩⟩
    · rintro ⟨x, hx⟩
      obtain ⟨h1, h2⟩ := (actual_ok x).1 hx
      have hS := (rowsOk_both hb).2 h1
      have hne := denSum_nil (actualOfParts_ok hnB h2).1
      obtain ⟨y, hy⟩ := (actualOfParts_defined hnS).2 (actual_unit (rowsAre_segmentation hb hS) hne).1.ne'
      exact ⟨y, (actual_ok y).2 ⟨hS, hy⟩⟩
  · intro x y hx hy
    obtain ⟨_, h2⟩ := (actual_ok x).1 hx
    obtain ⟨h1, h3⟩ := (actual_ok y).1 hy
    obtain ⟨h4, h5⟩ := actualOfParts_ok hnB h2
    rw [h5, (actualOfParts_ok hnS h3).2]
    exact numSum_both hb h1 (denSum_nil h4)

theorem chance_mono {a a' e : ℚ} (h : a ≤ a') (e1 : e < 1) : (a - e) / (1 - e) ≤ (a' - e) / (1 - e) :=
  div_le_div_of_nonneg_right (by linarith) (by linarith)

/-- C96: Fleiss' pi is defined for one comparison exactly if it is for the other; both report the same
expected agreement; pi is never lower with segmentation similarity. -/
theorem C96_pi (hd : IsDict data.items) (hv : AllValid (agrFormat kw data) data.items)
    (hs : TypesShared rt kw data) :
    (∀ rp, (∃ out, fleissPi o (compareS rt nT .default) kw rp data = .ok out) ↔
      ∃ out, fleissPi o (compareB rt nT .default) kw rp data = .ok out) ∧
    (∀ a a' e e', fleissPi o (compareB rt nT .default) kw true data = .ok (.parts a e) →
      fleissPi o (compareS rt nT .default) kw true data = .ok (.parts a' e') → e = e') ∧
    ∀ x y, fleissPi o (compareB rt nT .default) kw false data = .ok (.value x) →
      fleissPi o (compareS rt nT .default) kw false data = .ok (.value y) → x.val ≤ y.val := by
  have hb := rowBoth_all (o := o) (nT := nT) hd hv hs
  have hnS := rowsNoFlt_segmentation hb
  have hnB := rowsNoFlt_default rt nT (agrFormat kw data) (jobsOf o data)
  have hae := piAe_both hb
  refine ⟨fun rp => ⟨?_, ?_⟩, ?_, ?_⟩
  · rintro ⟨out, h⟩
    obtain ⟨g1, g2, g3, g4, g5, g6⟩ := (fleissPi_ok hnS rp out).1 h
    have hB := (rowsOk_both hb).1 g2
    refine ⟨_, (fleissPi_ok hnB rp _).2 ⟨g1, hB, (actual_unit (rowsAre_default hB)
      (denSum_nil g3)).1.ne', fun j hj => ?_, hae ▸ g5, rfl⟩⟩
    rw [← (rows_counts hb hj).1]; exact g4 j hj
  · rintro ⟨out, h⟩
    obtain ⟨g1, g2, g3, g4, g5, g6⟩ := (fleissPi_ok hnB rp out).1 h
    have hS := (rowsOk_both hb).2 g2
    refine ⟨_, (fleissPi_ok hnS rp _).2 ⟨g1, hS, (actual_unit (rowsAre_segmentation hb hS)
      (denSum_nil g3)).1.ne', fun j hj => ?_, hae ▸ g5, rfl⟩⟩
    rw [(rows_counts hb hj).1]; exact g4 j hj
  · intro a a' e e' h h'
    have g := ((fleissPi_ok hnB true _).1 h).2.2.2.2.2
    have g' := ((fleissPi_ok hnS true _).1 h').2.2.2.2.2
    simp only [agrOut, if_true, AgrOut.parts.injEq] at g g'
    rw [g.2, g'.2, hae]
  · intro x y h h'
    obtain ⟨_, g2, g3, _, g5, g6⟩ := (fleissPi_ok hnB false _).1 h
    obtain ⟨_, k2, _, _, _, k6⟩ := (fleissPi_ok hnS false _).1 h'
    simp only [agrOut, Bool.false_eq_true, if_false, AgrOut.value.injEq] at g6 k6
    rw [g6, k6, hae]
    exact chance_mono (numSum_both hb k2 (denSum_nil g3)) (lt_of_le_of_ne
      (pi_unit (rowsAre_default g2) (denSum_nil g3)).2.1 g5)

/-- C96: the same for Fleiss' kappa. -/
theorem C96_kappa (hd : IsDict data.items) (hv : AllValid (agrFormat kw data) data.items)
    (hs : TypesShared rt kw data) :
    (∀ rp, (∃ out, fleissKappa o (compareS rt nT .default) kw rp data = .ok out) ↔
      ∃ out, fleissKappa o (compareB rt nT .default) kw rp data = .ok out) ∧
    (∀ a a' e e', fleissKappa o (compareB rt nT .default) kw true data = .ok (.parts a e) →
      fleissKappa o (compareS rt nT .default) kw true data = .ok (.parts a' e') → e = e') ∧
    ∀ x y, fleissKappa o (compareB rt nT .default) kw false data = .ok (.value x) →
      fleissKappa o (compareS rt nT .default) kw false data = .ok (.value y) → x.val ≤ y.val := by
  have hb := rowBoth_all (o := o) (nT := nT) hd hv hs
  have hnS := rowsNoFlt_segmentation hb
  have hnB := rowsNoFlt_default rt nT (agrFormat kw data) (jobsOf o data)
  have hae := kappaAe_both hb (o.order [] (getCoders data))
  refine ⟨fun rp => ⟨?_, ?_⟩, ?_, ?_⟩
  · rintro ⟨out, h⟩
    obtain ⟨g0, g1, g2, g3, g4, g5, g6⟩ := (fleissKappa_ok hnS rp out).1 h
    have hB := (rowsOk_both hb).1 g2
    refine ⟨_, (fleissKappa_ok hnB rp _).2 ⟨g0, g1, hB, (actual_unit (rowsAre_default hB)
      (denSum_nil g3)).1.ne', fun c hc => ?_, hae ▸ g5, rfl⟩⟩
    rw [← tallyOf_both hb c]; exact g4 c hc
  · rintro ⟨out, h⟩
    obtain ⟨g0, g1, g2, g3, g4, g5, g6⟩ := (fleissKappa_ok hnB rp out).1 h
    have hS := (rowsOk_both hb).2 g2
    refine ⟨_, (fleissKappa_ok hnS rp _).2 ⟨g0, g1, hS, (actual_unit (rowsAre_segmentation hb hS)
      (denSum_nil g3)).1.ne', fun c hc => ?_, hae ▸ g5, rfl⟩⟩
    rw [tallyOf_both hb c]; exact g4 c hc
  · intro a a' e e' h h'
    have g := ((fleissKappa_ok hnB true _).1 h).2.2.2.2.2.2
    have g' := ((fleissKappa_ok hnS true _).1 h').2.2.2.2.2.2
    simp only [agrOut, if_true, AgrOut.parts.injEq] at g g'
    rw [g.2, g'.2, hae]
  · intro x y h h'
    obtain ⟨_, _, g2, g3, _, g5, g6⟩ := (fleissKappa_ok hnB false _).1 h
    obtain ⟨_, _, k2, _, _, _, k6⟩ := (fleissKappa_ok hnS false _).1 h'
    simp only [agrOut, Bool.false_eq_true, if_false, AgrOut.value.injEq] at g6 k6
    rw [g6, k6, hae]
    exact chance_mono (numSum_both hb k2 (denSum_nil g3)) (lt_of_le_of_ne
      (kappa_unit (rowsAre_default g2) (denSum_nil g3)).2.1 g5)

theorem bias_ok {cmp : Compare} {rp : Bool} {out : AgrOut} :
    artsteinPoesioBias o cmp kw rp data = .ok out ↔
      ∃ a p a' k b, fleissPi o cmp kw true data = .ok (.parts a p) ∧
        fleissKappa o cmp kw true data = .ok (.parts a' k) ∧ p.sub k = .ok b ∧
        out = if rp then .parts p k else .value b := by
  unfold artsteinPoesioBias
  cases h1 : fleissPi o cmp kw true data with
  | error e => simp
  | ok r =>
    cases r with
    | value x => simp
    | parts a p =>
      cases h2 : fleissKappa o cmp kw true data with
      | error e => simp
      | ok r' =>
        cases r' with
        | value x => simp
        | parts a' k =>
          simp only [Except.ok.injEq, AgrOut.parts.injEq]
          cases h3 : p.sub k with
          | error e =>
            simp only [reduceCtorEq, false_iff]
            rintro ⟨_, _, _, _, b, ⟨_, rfl⟩, ⟨_, rfl⟩, hb, _⟩
            rw [h3] at hb; cases hb
          | ok b =>
            constructor
            · intro h
              refine ⟨a, p, a', k, b, ⟨rfl, rfl⟩, ⟨rfl, rfl⟩, h3, ?_⟩
              cases rp <;> simpa using h.symm
            · rintro ⟨_, _, _, _, b', ⟨_, rfl⟩, ⟨_, rfl⟩, hb, rfl⟩
              rw [h3] at hb; cases hb
              cases rp <;> rfl

theorem parts_of {r : Bool → Py AgrOut} {a b : ℚ} {out : AgrOut} (h : r true = .ok out)
    (ho : out = agrOut true a b) : r true = .ok (.parts (.dec a) (.dec b)) := by
  rw [h, ho]; rfl

/-- C96: the annotator bias does not depend on the comparison. -/
theorem C96_bias (hd : IsDict data.items) (hv : AllValid (agrFormat kw data) data.items)
    (hs : TypesShared rt kw data) (rp : Bool) (out : AgrOut) :
    artsteinPoesioBias o (compareS rt nT .default) kw rp data = .ok out ↔
      artsteinPoesioBias o (compareB rt nT .default) kw rp data = .ok out := by
  have hb := rowBoth_all (o := o) (nT := nT) hd hv hs
  have hnS := rowsNoFlt_segmentation hb
  have hnB := rowsNoFlt_default rt nT (agrFormat kw data) (jobsOf o data)
  obtain ⟨p1, p2, _⟩ := C96_pi (o := o) (nT := nT) hd hv hs
  obtain ⟨k1, k2, _⟩ := C96_kappa (o := o) (nT := nT) hd hv hs
  rw [bias_ok, bias_ok]
  constructor
  · rintro ⟨a, p, a', k, b, h1, h2, h3, h4⟩
    obtain ⟨o1, g1⟩ := (p1 true).1 ⟨_, h1⟩
    obtain ⟨o2, g2⟩ := (k1 true).1 ⟨_, h2⟩
    have e1 := parts_of (r := fun rp => fleissPi o (compareB rt nT .default) kw rp data) g1
      ((fleissPi_ok hnB true _).1 g1).2.2.2.2.2
    have e2 := parts_of (r := fun rp => fleissKappa o (compareB rt nT .default) kw rp data) g2
      ((fleissKappa_ok hnB true _).1 g2).2.2.2.2.2.2
    have q1 := p2 _ _ _ _ e1 h1
    have q2 := k2 _ _ _ _ e2 h2
    subst q1 q2
    exact ⟨_, _, _, _, b, e1, e2, h3, h4⟩
  · rintro ⟨a, p, a', k, b, h1, h2, h3, h4⟩
    obtain ⟨o1, g1⟩ := (p1 true).2 ⟨_, h1⟩
    obtain ⟨o2, g2⟩ := (k1 true).2 ⟨_, h2⟩
    have e1 := parts_of (r := fun rp => fleissPi o (compareS rt nT .default) kw rp data) g1
      ((fleissPi_ok hnS true _).1 g1).2.2.2.2.2
    have e2 := parts_of (r := fun rp => fleissKappa o (compareS rt nT .default) kw rp data) g2
      ((fleissKappa_ok hnS true _).1 g2).2.2.2.2.2.2
    have q1 := p2 _ _ _ _ h1 e1
    have q2 := k2 _ _ _ _ h2 e2
    subst q1 q2
    exact ⟨_, _, _, _, b, e1, e2, h3, h4⟩

end

/-- Three coders of two items: 9/10 against 5/8, with the same expected agreement. -/
example : actualAgreement ascN (compareS .ascending 2 .default) .mass exAgr = .ok (.dec (9 / 10)) ∧
    actualAgreement ascN (compareB .ascending 2 .default) .mass exAgr = .ok (.dec (5 / 8)) ∧
    fleissPi ascN (compareS .ascending 2 .default) .mass true exAgr =
      .ok (.parts (.dec (9 / 10)) (.dec (289 / 5184))) ∧
    fleissKappa ascN (compareS .ascending 2 .default) .mass true exAgr =
      .ok (.parts (.dec (9 / 10)) (.dec (4 / 75))) ∧
    IsDict exAgr.items ∧ CodersMatch exAgr ∧ AllValid .mass exAgr.items ∧
    TypesShared .ascending .mass exAgr ∧ SameData exAgr exAgr' := by
  refine ⟨by decide +kernel, by decide +kernel, by decide +kernel, by decide +kernel, exAgr_dict,
    codersMatch_dict exAgr_dict, exAgr_valid, Or.inl (by decide), .dict _ _ ⟨_, List.Perm.swap _ _ _, ?_⟩⟩
  refine .cons ⟨rfl, ?_⟩ (.cons ⟨rfl, ?_⟩ .nil)
  · exact (List.Perm.swap _ _ _).trans ((List.Perm.cons _ (List.Perm.swap _ _ _)).trans
      (List.Perm.swap _ _ _))
  · exact List.Perm.swap _ _ _

/-- Their similarities, weighed by the 4 and 6 positions of the items; the bias of either comparison. -/
example :
    let W : Name → Name → Name → ℚ := fun l _ _ => if l = "x".toList then 4 else 6
    let S : Name → Name → Name → ℚ := fun l m n =>
      if l = "x".toList then if m = "b".toList ∨ n = "b".toList then 7 / 8 else 1
      else if m = "a".toList ∨ n = "a".toList then 5 / 6 else 1
    (∑ m ∈ getCoders exAgr, ∑ n ∈ (getCoders exAgr).erase m,
        (exAgr.items.map (fun it => W it.1 m n * S it.1 m n)).sum) /
      (∑ m ∈ getCoders exAgr, ∑ n ∈ (getCoders exAgr).erase m,
        (exAgr.items.map (fun it => W it.1 m n)).sum) = 9 / 10 ∧
    segmentationSimilarity .ascending ⟨.mass, false, false, 2, .default⟩ (mass [2, 3]) (mass [1, 4]) =
      .ok (.num (.dec (7 / 8))) ∧
    segmentationSimilarity .ascending ⟨.mass, false, false, 2, .default⟩ (mass [3, 2, 2]) (mass [3, 4]) =
      .ok (.num (.dec (5 / 6))) ∧
    artsteinPoesioBias ascN (compareS .ascending 2 .default) .mass false exAgr =
      artsteinPoesioBias ascN (compareB .ascending 2 .default) .mass false exAgr ∧
    artsteinPoesioBias ascN (compareB .ascending 2 .default) .mass false exAgr =
      .ok (.value (.dec (289 / 5184 - 4 / 75))) := by
  refine ⟨by decide +kernel, by decide +kernel, by decide +kernel, by decide +kernel, by decide +kernel⟩

end SegEval.Props
