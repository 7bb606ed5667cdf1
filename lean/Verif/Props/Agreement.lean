import Verif.Lemmas.AgreementForm
import Verif.Props.Compute

/-!
# C46–C50: agreement coefficients
-/

namespace SegEval.Props

open SegEval Spec

/-- Two items coded by three coders. -/
def exAgr : AgrData := .dict
  [("x".toList, [("a".toList, mass [2, 3]), ("b".toList, mass [1, 4]), ("c".toList, mass [2, 3])]),
   ("y".toList, [("c".toList, mass [3, 4]), ("b".toList, mass [3, 4]), ("a".toList, mass [3, 2, 2])])]

/-- The same data in another order. -/
def exAgr' : AgrData := .dict
  [("y".toList, [("a".toList, mass [3, 2, 2]), ("b".toList, mass [3, 4]), ("c".toList, mass [3, 4])]),
   ("x".toList, [("b".toList, mass [1, 4]), ("a".toList, mass [2, 3]), ("c".toList, mass [2, 3])])]

/-- Two coders who agree. -/
def exSame (l : List ℤ) : AgrData :=
  .dict [("x".toList, [("a".toList, mass l), ("b".toList, mass l)])]

/-- A descending enumeration, for the examples. -/
def descN : ClassOrder Name where
  order site s := (ascN.order site s).reverse
  nodup site s := List.nodup_reverse.2 (ascN.nodup site s)
  mem site s x := by rw [List.mem_reverse]; exact ascN.mem site s x

/-- Positive masses everywhere. -/
def massItems (items : Items) : Prop :=
  ∀ it ∈ items, ∀ e ∈ it.2, ∃ l : List ℤ, e.2 = mass l ∧ l ≠ [] ∧ ∀ m ∈ l, 0 < m

theorem massItems_valid {items : Items} (h : massItems items) : AllValid .mass items := by
  rintro label c s ⟨cs, h1, h2⟩
  obtain ⟨l, h3, h4, h5⟩ := h _ (dictGet_mem h1) _ (dictGet_mem h2)
  simp only at h3
  subst h3
  exact ⟨_, massSeg_denotes l h4 h5 _ (boundaryString_eq l h5 h4)⟩

theorem exAgr_dict : IsDict exAgr.items := by
  constructor
  · decide +kernel
  · decide +kernel

theorem exAgr_valid : AllValid .mass exAgr.items := by
  apply massItems_valid
  simp only [massItems, exAgr, AgrData.items, List.forall_mem_cons, List.not_mem_nil,
    false_implies, implies_true, and_true]
  exact ⟨⟨⟨_, rfl, by decide, by decide⟩, ⟨_, rfl, by decide, by decide⟩, ⟨_, rfl, by decide, by decide⟩⟩,
    ⟨_, rfl, by decide, by decide⟩, ⟨_, rfl, by decide, by decide⟩, ⟨_, rfl, by decide, by decide⟩⟩

theorem exSame_dict (l : List ℤ) : IsDict (exSame l).items := by
  constructor
  · simp [exSame, AgrData.items]
  · simp [exSame, AgrData.items]

theorem exSame_valid (l : List ℤ) (h : l ≠ []) (hp : ∀ m ∈ l, 0 < m) :
    AllValid .mass (exSame l).items := by
  apply massItems_valid
  simp only [massItems, exSame, AgrData.items, List.forall_mem_cons, List.not_mem_nil,
    false_implies, implies_true, and_true]
  exact ⟨⟨_, rfl, h, hp⟩, ⟨_, rfl, h, hp⟩⟩

/-! ## C46 -/

/-- C46: actual agreement lies between 0 and 1, and is 1 exactly if in every item all coders place
the same boundaries. -/
theorem C46_actual {o : ClassOrder Name} {rt : Runtime} {nT : ℤ} {kw : BoundaryFormat}
    {data : AgrData} {x : PyNum} (hd : IsDict data.items) (hc : CodersMatch data)
    (hv : AllValid (agrFormat kw data) data.items)
    (h : actualAgreement o (compareB rt nT .default) kw data = .ok x) :
    0 ≤ x.val ∧ x.val ≤ 1 ∧ (x.val = 1 ↔ CompleteAgreement (agrFormat kw data) data.items) := by
  obtain ⟨h1, h2⟩ := (actual_ok x).1 h
  have hn := rowsNoFlt_default rt nT (agrFormat kw data) (jobsOf o data)
  obtain ⟨h3, h4⟩ := actualOfParts_ok hn h2
  have hr := rowsAre_default h1
  obtain ⟨_, u1, u2, u3⟩ := actual_unit hr (denSum_nil h3)
  rw [h4]
  exact ⟨u1, u2, u3.trans (complete_iff hd hc hv hr)⟩

/-- Agreement of 5/8 for three coders; 1 for two coders who agree; 0 for complete disagreement. -/
example : actualAgreement ascN (compareB .ascending 2 .default) .mass exAgr = .ok (.dec (5 / 8)) ∧
    actualAgreement ascN (compareB .ascending 2 .default) .mass (exSame [2, 3]) = .ok (.dec 1) ∧
    actualAgreement ascN (compareB .ascending 2 .default) .mass
      (.dict [("x".toList, [("a".toList, mass [1, 6]), ("b".toList, mass [6, 1])])]) = .ok (.dec 0) ∧
    IsDict exAgr.items ∧ CodersMatch exAgr ∧ AllValid .mass exAgr.items :=
  ⟨by decide +kernel, by decide +kernel, by decide +kernel, exAgr_dict, codersMatch_dict exAgr_dict,
    exAgr_valid⟩

/-! ## C47 -/

theorem allShared_of {rt : Runtime} {fmt : BoundaryFormat} {items : Items} (hf : fmt ≠ .sets) :
    AllShared rt fmt items :=
  fun _ _ _ _ _ _ _ _ _ da db => denotes_shared rt da db hf

theorem sameJobs_compareB {o o' : ClassOrder Name} {rt rt' : Runtime} {nT : ℤ} {w : Weights}
    (hw : Supplied w) {kw : BoundaryFormat} {d d' : AgrData} (hsd : SameData d d')
    (hd : IsDict d.items) (hv : AllValid (agrFormat kw d) d.items)
    (hs : agrFormat kw d ≠ .sets ∨ (AllShared rt (agrFormat kw d) d.items ∧
      AllShared rt' (agrFormat kw d) d.items)) :
    SameJobs (compareB rt nT w) (compareB rt' nT w) (agrFormat kw d) (jobsOf o d) (jobsOf o' d') :=
  sameJobs hsd hd (rowsSym_compareB hw hd hv
    (hs.elim (fun h => allShared_of h) (fun h => h.1))
    (hs.elim (fun h => allShared_of h) (fun h => h.2)))

theorem sameData_two {d d' : AgrData} (h : SameData d d') (hd : IsDict d.items) :
    (∀ it ∈ d.items, 2 ≤ it.2.length) ↔ ∀ it ∈ d'.items, 2 ≤ it.2.length := by
  have hl := rearranged_lengths (sameData_items h) hd
  constructor
  · intro g it hit
    obtain ⟨it', h1, h2⟩ := (hl it.2.length).2 ⟨it, hit, rfl⟩
    rw [← h2]; exact g it' h1
  · intro g it hit
    obtain ⟨it', h1, h2⟩ := (hl it.2.length).1 ⟨it, hit, rfl⟩
    rw [← h2]; exact g it' h1

/-- C47: actual agreement does not depend on the order in which the coder set is enumerated, on the
order of items and codings, nor on any set order inside the comparison. -/
theorem C47_actual (o o' : ClassOrder Name) (rt rt' : Runtime) (nT : ℤ) (w : Weights)
    (hw : Supplied w) (kw : BoundaryFormat) (d d' : AgrData) (hsd : SameData d d')
    (hd : IsDict d.items) (hv : AllValid (agrFormat kw d) d.items)
    (hs : agrFormat kw d ≠ .sets ∨ (AllShared rt (agrFormat kw d) d.items ∧
      AllShared rt' (agrFormat kw d) d.items)) (x : PyNum) :
    actualAgreement o (compareB rt nT w) kw d = .ok x ↔
      actualAgreement o' (compareB rt' nT w) kw d' = .ok x := by
  have hsj := sameJobs_compareB (o := o) (o' := o') (nT := nT) hw hsd hd hv hs
  have hf := sameData_format hsd kw
  exact ⟨actual_transfer hsj hf, actual_transfer (hf ▸ hsj.symm) hf.symm⟩

/-- C47: nor does Fleiss' pi, nor its parts. -/
theorem C47_pi (o o' : ClassOrder Name) (rt rt' : Runtime) (nT : ℤ) (w : Weights)
    (hw : Supplied w) (kw : BoundaryFormat) (rp : Bool) (d d' : AgrData) (hsd : SameData d d')
    (hd : IsDict d.items) (hv : AllValid (agrFormat kw d) d.items)
    (hs : agrFormat kw d ≠ .sets ∨ (AllShared rt (agrFormat kw d) d.items ∧
      AllShared rt' (agrFormat kw d) d.items)) (x : AgrOut) :
    fleissPi o (compareB rt nT w) kw rp d = .ok x ↔
      fleissPi o' (compareB rt' nT w) kw rp d' = .ok x := by
  have hsj := sameJobs_compareB (o := o) (o' := o') (nT := nT) hw hsd hd hv hs
  have hf := sameData_format hsd kw
  have he := rearranged_equalCodings (sameData_items hsd) hd
  exact ⟨pi_transfer hsj hf he, pi_transfer (hf ▸ hsj.symm) hf.symm he.symm⟩

/-- C47: nor does Fleiss' kappa, nor its parts. -/
theorem C47_kappa (o o' : ClassOrder Name) (rt rt' : Runtime) (nT : ℤ) (w : Weights)
    (hw : Supplied w) (kw : BoundaryFormat) (rp : Bool) (d d' : AgrData) (hsd : SameData d d')
    (hd : IsDict d.items) (hv : AllValid (agrFormat kw d) d.items)
    (hs : agrFormat kw d ≠ .sets ∨ (AllShared rt (agrFormat kw d) d.items ∧
      AllShared rt' (agrFormat kw d) d.items)) (x : AgrOut) :
    fleissKappa o (compareB rt nT w) kw rp d = .ok x ↔
      fleissKappa o' (compareB rt' nT w) kw rp d' = .ok x := by
  have hsj := sameJobs_compareB (o := o) (o' := o') (nT := nT) hw hsd hd hv hs
  have hf := sameData_format hsd kw
  have he := rearranged_equalCodings (sameData_items hsd) hd
  have hc := sameData_coders hsd hd
  have hl := sameData_two hsd hd
  exact ⟨kappa_transfer hsj hf he hl hc, kappa_transfer (hf ▸ hsj.symm) hf.symm he.symm hl.symm hc.symm⟩

/-- Another order of coders, items and codings, with a value to compare. -/
example : SameData exAgr exAgr' ∧
    actualAgreement descN (compareB .ascending 2 .default) .mass exAgr' = .ok (.dec (5 / 8)) ∧
    (∃ v, fleissPi ascN (compareB .ascending 2 .default) .mass false exAgr = .ok v ∧
      fleissPi descN (compareB .ascending 2 .default) .mass false exAgr' = .ok v) ∧
    (∃ v, fleissKappa ascN (compareB .ascending 2 .default) .mass false exAgr = .ok v ∧
      fleissKappa descN (compareB .ascending 2 .default) .mass false exAgr' = .ok v) := by
  refine ⟨.dict _ _ ⟨_, List.Perm.swap _ _ _, ?_⟩, by decide +kernel, ⟨.value (.dec (2951 / 4895)), by decide +kernel, by decide +kernel⟩,
    ⟨.value (.dec (343 / 568)), by decide +kernel, by decide +kernel⟩⟩
  refine .cons ⟨rfl, ?_⟩ (.cons ⟨rfl, ?_⟩ .nil)
  · exact (List.Perm.swap _ _ _).trans ((List.Perm.cons _ (List.Perm.swap _ _ _)).trans
      (List.Perm.swap _ _ _))
  · exact List.Perm.swap _ _ _

/-! ## C48 -/

theorem chance_le {a e : ℚ} (a1 : a ≤ 1) (e0 : 0 ≤ e) (e1 : e < 1) :
    (a - e) / (1 - e) ≤ a ∧ ((a - e) / (1 - e) = 1 ↔ a = 1) := by
  have hp : (0 : ℚ) < 1 - e := by linarith
  constructor
  · rw [div_le_iff₀ hp]; nlinarith
  · rw [div_eq_one_iff_eq hp.ne']; constructor <;> intro h <;> linarith

/-- C48: whenever Fleiss' pi returns, actual agreement is defined; pi is the actual agreement
corrected for the expected agreement it reports as its second part, which is in [0, 1); pi never
exceeds actual agreement, and is 1 exactly under complete agreement. -/
theorem C48_pi {o : ClassOrder Name} {rt : Runtime} {nT : ℤ} {kw : BoundaryFormat}
    {data : AgrData} {out : AgrOut} (hd : IsDict data.items) (hc : CodersMatch data)
    (hv : AllValid (agrFormat kw data) data.items)
    (h : fleissPi o (compareB rt nT .default) kw false data = .ok out) :
    ∃ v x : PyNum, ∃ ae : ℚ, out = .value v ∧
      actualAgreement o (compareB rt nT .default) kw data = .ok x ∧
      fleissPi o (compareB rt nT .default) kw true data = .ok (.parts (.dec x.val) (.dec ae)) ∧
      0 ≤ ae ∧ ae < 1 ∧ v.val = (x.val - ae) / (1 - ae) ∧ v.val ≤ x.val ∧ v.val ≤ 1 ∧
      (v.val = 1 ↔ CompleteAgreement (agrFormat kw data) data.items) := by
  have hn := rowsNoFlt_default rt nT (agrFormat kw data) (jobsOf o data)
  obtain ⟨g1, g2, g3, g4, g5, g6⟩ := (fleissPi_ok hn false out).1 h
  have hr := rowsAre_default g2
  obtain ⟨x, hx⟩ := (actualOfParts_defined hn).2 g3
  obtain ⟨_, hxv⟩ := actualOfParts_ok hn hx
  obtain ⟨_, u1, u2, u3⟩ := actual_unit hr (denSum_nil g3)
  obtain ⟨p0, p1, p2⟩ := pi_unit hr (denSum_nil g3)
  have p1' := lt_of_le_of_ne p1 g5
  obtain ⟨c1, c2⟩ := chance_le u2 p0 p1'
  refine ⟨_, x, _, g6, (actual_ok x).2 ⟨g2, hx⟩, ?_, p0, p1', ?_, ?_, ?_, ?_⟩
  · rw [hxv]; exact (fleissPi_ok hn true _).2 ⟨g1, g2, g3, g4, g5, rfl⟩
  · rw [hxv]; rfl
  · rw [hxv]; exact c1
  · exact c1.trans u2
  · exact c2.trans (u3.trans (complete_iff hd hc hv hr))

/-- C48: the same for Fleiss' kappa. -/
theorem C48_kappa {o : ClassOrder Name} {rt : Runtime} {nT : ℤ} {kw : BoundaryFormat}
    {data : AgrData} {out : AgrOut} (hd : IsDict data.items) (hc : CodersMatch data)
    (hv : AllValid (agrFormat kw data) data.items)
    (h : fleissKappa o (compareB rt nT .default) kw false data = .ok out) :
    ∃ v x : PyNum, ∃ ae : ℚ, out = .value v ∧
      actualAgreement o (compareB rt nT .default) kw data = .ok x ∧
      fleissKappa o (compareB rt nT .default) kw true data = .ok (.parts (.dec x.val) (.dec ae)) ∧
      0 ≤ ae ∧ ae < 1 ∧ v.val = (x.val - ae) / (1 - ae) ∧ v.val ≤ x.val ∧ v.val ≤ 1 ∧
      (v.val = 1 ↔ CompleteAgreement (agrFormat kw data) data.items) := by
  have hn := rowsNoFlt_default rt nT (agrFormat kw data) (jobsOf o data)
  obtain ⟨g0, g1, g2, g3, g4, g5, g6⟩ := (fleissKappa_ok hn false out).1 h
  have hr := rowsAre_default g2
  obtain ⟨x, hx⟩ := (actualOfParts_defined hn).2 g3
  obtain ⟨_, hxv⟩ := actualOfParts_ok hn hx
  obtain ⟨_, u1, u2, u3⟩ := actual_unit hr (denSum_nil g3)
  obtain ⟨p0, p1, p2⟩ := kappa_unit hr (denSum_nil g3)
  have p1' := lt_of_le_of_ne p1 g5
  obtain ⟨c1, c2⟩ := chance_le u2 p0 p1'
  refine ⟨_, x, _, g6, (actual_ok x).2 ⟨g2, hx⟩, ?_, p0, p1', ?_, ?_, ?_, ?_⟩
  · rw [hxv]; exact (fleissKappa_ok hn true _).2 ⟨g0, g1, g2, g3, g4, g5, rfl⟩
  · rw [hxv]; rfl
  · rw [hxv]; exact c1
  · exact c1.trans u2
  · exact c2.trans (u3.trans (complete_iff hd hc hv hr))

/-! ## C49 -/

/-- C49: whenever actual agreement is defined, pi returns a value unless every pair of coders places
every boundary it uses everywhere (then expected agreement is 1).  Partial: in that last case the
claim is false, see `C49_refuted`. -/
theorem C49_pi_partial {o : ClassOrder Name} {rt : Runtime} {nT : ℤ} {kw : BoundaryFormat}
    {data : AgrData} {x : PyNum} (hd : IsDict data.items) (hc : CodersMatch data)
    (hv : AllValid (agrFormat kw data) data.items)
    (h : actualAgreement o (compareB rt nT .default) kw data = .ok x) (rp : Bool) :
    (∃ out, fleissPi o (compareB rt nT .default) kw rp data = .ok out) ↔
      ¬ Saturated (agrFormat kw data) data.items := by
  have hn := rowsNoFlt_default rt nT (agrFormat kw data) (jobsOf o data)
  obtain ⟨h1, h2⟩ := (actual_ok x).1 h
  obtain ⟨h3, _⟩ := actualOfParts_ok hn h2
  have hr := rowsAre_default h1
  obtain ⟨_, _, p2⟩ := pi_unit hr (denSum_nil h3)
  have hfull := full_iff hd hc hv hr
  rw [← hfull, ← p2]
  constructor
  · rintro ⟨out, ho⟩; exact ((fleissPi_ok hn rp out).1 ho).2.2.2.2.1
  · intro hne
    refine ⟨_, (fleissPi_ok hn rp _).2 ⟨?_, h1, h3, ?_, hne, rfl⟩⟩
    · exact equalCodings_of (jobs_ne_nil.1 (denSum_nil h3)).2 (codings_count hd hc h1 (denSum_nil h3))
    · intro j hj
      obtain ⟨a, b, hab⟩ := hr j hj
      exact hab.pbs_pos.ne'

/-- C49: the same for kappa. -/
theorem C49_kappa_partial {o : ClassOrder Name} {rt : Runtime} {nT : ℤ} {kw : BoundaryFormat}
    {data : AgrData} {x : PyNum} (hd : IsDict data.items) (hc : CodersMatch data)
    (hv : AllValid (agrFormat kw data) data.items)
    (h : actualAgreement o (compareB rt nT .default) kw data = .ok x) (rp : Bool) :
    (∃ out, fleissKappa o (compareB rt nT .default) kw rp data = .ok out) ↔
      ¬ Saturated (agrFormat kw data) data.items := by
  have hn := rowsNoFlt_default rt nT (agrFormat kw data) (jobsOf o data)
  obtain ⟨h1, h2⟩ := (actual_ok x).1 h
  obtain ⟨h3, _⟩ := actualOfParts_ok hn h2
  have hr := rowsAre_default h1
  have hjne := denSum_nil h3
  obtain ⟨_, _, p2⟩ := kappa_unit hr hjne
  have hfull := full_iff hd hc hv hr
  rw [← hfull]
  have p2' : kappaAe (compareB rt nT .default) (agrFormat kw data) (o.order [] (getCoders data))
      (jobsOf o data) = 1 ↔ AllFull (compareB rt nT .default) (agrFormat kw data) (jobsOf o data) := p2
  rw [← p2']
  have hcount := codings_count hd hc h1 hjne
  constructor
  · rintro ⟨out, ho⟩; exact ((fleissKappa_ok hn rp out).1 ho).2.2.2.2.2.1
  · intro hne
    refine ⟨_, (fleissKappa_ok hn rp _).2 ⟨?_, ?_, h1, h3, ?_, hne, rfl⟩⟩
    · intro it hit
      rw [hcount it hit, ← order_length o]
      exact (jobs_ne_nil.1 hjne).1
    · exact equalCodings_of (jobs_ne_nil.1 hjne).2 hcount
    · intro c hcc
      exact (tallyOf_unit hr hjne ((o.mem _ _ _).2 hcc)).2.2.1.ne'

/-- C48: under complete agreement pi and kappa are 1, when actual agreement is defined and not every
boundary is placed everywhere. -/
theorem C48_complete {o : ClassOrder Name} {rt : Runtime} {nT : ℤ} {kw : BoundaryFormat}
    {data : AgrData} {x : PyNum} (hd : IsDict data.items) (hc : CodersMatch data)
    (hv : AllValid (agrFormat kw data) data.items)
    (h : actualAgreement o (compareB rt nT .default) kw data = .ok x)
    (hs : ¬ Saturated (agrFormat kw data) data.items)
    (hca : CompleteAgreement (agrFormat kw data) data.items) :
    (∃ v : PyNum, fleissPi o (compareB rt nT .default) kw false data = .ok (.value v) ∧ v.val = 1) ∧
    (∃ v : PyNum, fleissKappa o (compareB rt nT .default) kw false data = .ok (.value v) ∧ v.val = 1) := by
  obtain ⟨out, ho⟩ := (C49_pi_partial hd hc hv h false).2 hs
  obtain ⟨out', ho'⟩ := (C49_kappa_partial hd hc hv h false).2 hs
  obtain ⟨v, _, _, rfl, _, _, _, _, _, _, _, h1⟩ := C48_pi hd hc hv ho
  obtain ⟨v', _, _, rfl, _, _, _, _, _, _, _, h2⟩ := C48_kappa hd hc hv ho'
  exact ⟨⟨v, ho, h1.2 hca⟩, ⟨v', ho', h2.2 hca⟩⟩

/-- Values for three coders who agree in part, and for two who agree. -/
example :
    fleissPi ascN (compareB .ascending 2 .default) .mass true exAgr =
      .ok (.parts (.dec (5 / 8)) (.dec (289 / 5184))) ∧
    fleissPi ascN (compareB .ascending 2 .default) .mass false exAgr =
      .ok (.value (.dec (2951 / 4895))) ∧
    fleissKappa ascN (compareB .ascending 2 .default) .mass true exAgr =
      .ok (.parts (.dec (5 / 8)) (.dec (4 / 75))) ∧
    fleissPi ascN (compareB .ascending 2 .default) .mass false (exSame [2, 3]) =
      .ok (.value (.dec 1)) ∧
    ¬ Saturated .mass (exSame [2, 3]).items := by
  refine ⟨by decide +kernel, by decide +kernel, by decide +kernel, by decide +kernel, ?_⟩
  have hd := massSeg_denotes [2, 3] (by simp) (by decide) [∅, {1}, ∅, ∅] (by decide +kernel)
  intro h
  have := h "x".toList "a".toList "b".toList _ _ _ _ (by decide) ⟨_, rfl, rfl⟩ ⟨_, rfl, rfl⟩ hd hd 1
    ⟨1, by decide⟩ 0 (by decide)
  revert this
  decide

/-- C49 refuted: two coders who both place a boundary everywhere agree completely, yet neither pi nor
kappa is defined. -/
theorem C49_refuted :
    actualAgreement ascN (compareB .ascending 2 .default) .mass (exSame [1, 1]) = .ok (.dec 1) ∧
    fleissPi ascN (compareB .ascending 2 .default) .mass false (exSame [1, 1]) =
      .error .decimalInvalidOperation ∧
    fleissKappa ascN (compareB .ascending 2 .default) .mass false (exSame [1, 1]) =
      .error .decimalInvalidOperation ∧
    IsDict (exSame [1, 1]).items ∧ CodersMatch (exSame [1, 1]) ∧
    AllValid .mass (exSame [1, 1]).items :=
  ⟨by decide +kernel, by decide +kernel, by decide +kernel, exSame_dict _,
    codersMatch_dict (exSame_dict _), exSame_valid _ (by simp) (by decide)⟩

/-! ## C50 -/

/-- C50: the bias is pi's expected agreement minus kappa's; its parts are these two. -/
theorem C50_value {o : ClassOrder Name} {rt : Runtime} {nT : ℤ} {kw : BoundaryFormat}
    {data : AgrData} {out : AgrOut} {rp : Bool}
    (h : artsteinPoesioBias o (compareB rt nT .default) kw rp data = .ok out) :
    ∃ (aa : PyNum) (p k : ℚ),
      fleissPi o (compareB rt nT .default) kw true data = .ok (.parts aa (.dec p)) ∧
      fleissKappa o (compareB rt nT .default) kw true data = .ok (.parts aa (.dec k)) ∧
      out = if rp then .parts (.dec p) (.dec k) else .value (.dec (p - k)) := by
  have hn := rowsNoFlt_default rt nT (agrFormat kw data) (jobsOf o data)
  unfold artsteinPoesioBias at h
  cases h1 : fleissPi o (compareB rt nT .default) kw true data with
  | error e => rw [h1] at h; cases h
  | ok v =>
    obtain ⟨_, _, _, _, _, hv⟩ := (fleissPi_ok hn true v).1 h1
    simp only [agrOut, if_true] at hv
    subst hv
    rw [h1] at h
    simp only at h
    cases h2 : fleissKappa o (compareB rt nT .default) kw true data with
    | error e => rw [h2] at h; cases h
    | ok w =>
      obtain ⟨_, _, _, _, _, _, hw⟩ := (fleissKappa_ok hn true w).1 h2
      simp only [agrOut, if_true] at hw
      subst hw
      rw [h2] at h
      simp only [PyNum.sub] at h
      refine ⟨_, _, _, rfl, rfl, ?_⟩
      cases rp
      · simp only [Bool.false_eq_true, if_false] at h ⊢; exact (Except.ok.inj h).symm
      · simp only [if_true] at h ⊢; exact (Except.ok.inj h).symm

/-- C50: when all comparisons have the same size (for one boundary type: when all items have the same
number of units), the bias is non-negative.  Partial: with items of different sizes it can be
negative, see `C50_refuted`. -/
theorem C50_nonneg_partial {o : ClassOrder Name} {rt : Runtime} {nT : ℤ} {kw : BoundaryFormat}
    {data : AgrData} {v : PyNum} (hd : IsDict data.items)
    (hv : AllValid (agrFormat kw data) data.items) (size : ℕ)
    (hs : SameSize (agrFormat kw data) data.items size)
    (h : artsteinPoesioBias o (compareB rt nT .default) kw false data = .ok (.value v)) :
    0 ≤ v.val := by
  have hn := rowsNoFlt_default rt nT (agrFormat kw data) (jobsOf o data)
  obtain ⟨aa, p, k, h1, h2, h3⟩ := C50_value h
  obtain ⟨_, g2, g3, _, _, g6⟩ := (fleissPi_ok hn true _).1 h1
  obtain ⟨_, _, _, _, _, _, k6⟩ := (fleissKappa_ok hn true _).1 h2
  simp only [agrOut, if_true, AgrOut.parts.injEq, PyNum.dec.injEq] at g6 k6
  simp only [Bool.false_eq_true, if_false, AgrOut.value.injEq] at h3
  rw [h3]
  change 0 ≤ p - k
  rw [g6.2, k6.2, sub_nonneg]
  have hr := rowsAre_default g2
  have hjne := denSum_nil g3
  have hsize : ∀ j ∈ jobsOf o data,
      (rowD (compareB rt nT .default) (agrFormat kw data) j).pbs = (size : ℤ) := by
    rintro ⟨⟨m, n⟩, ⟨label, cs⟩⟩ hj
    obtain ⟨a, b, hab⟩ := hr _ hj
    obtain ⟨sa, sb, c1, c2, c3, c4⟩ := hab.coded
    simp only at c1 c2
    obtain ⟨hp, hit⟩ := mem_jobs.1 hj
    have hsub := (mem_combinations2 _ _ _).1 hp
    have hne : m ≠ n := by have := hsub.nodup (o.nodup [] _); simpa using this
    have hl := dictGet_of_mem hd.1 hit
    have cm : Coded data.items label m sa := ⟨cs, hl, c1⟩
    have cn : Coded data.items label n sb := ⟨cs, hl, c2⟩
    obtain ⟨a', da⟩ := hv _ _ _ cm
    obtain ⟨b', db⟩ := hv _ _ _ cn
    obtain ⟨types, t1, t2⟩ := hs label m n sa sb a' b' hne cm cn da db
    rw [denotes_unique da c3, denotes_unique db c4] at t1
    rw [denotes_unique da c3] at t2
    have : types = identifyTypes a b := by ext t; rw [t1, mem_identifyTypes]
    rw [hab.pbs, ← t2, this]
  have hpos : (size : ℤ) ≠ 0 := by
    obtain ⟨j, hj⟩ := List.exists_mem_of_ne_nil _ hjne
    obtain ⟨a, b, hab⟩ := hr j hj
    rw [← hsize j hj]
    exact hab.pbs_pos.ne'
  exact bias_nonneg hpos hjne (o.nodup _ _) hsize

/-- Two coders of one item; one of them places more boundaries. -/
def exBias : AgrData :=
  .dict [("x".toList, [("a".toList, mass [1, 2, 1]), ("b".toList, mass [1, 3])])]

example : artsteinPoesioBias ascN (compareB .ascending 2 .default) .mass false exBias =
      .ok (.value (.dec (1 / 36))) ∧ SameSize .mass exBias.items 3 := by
  refine ⟨by decide +kernel, ?_⟩
  have ha := massSeg_denotes [1, 2, 1] (by simp) (by decide) [{1}, ∅, {1}] (by decide +kernel)
  have hb := massSeg_denotes [1, 3] (by simp) (by decide) [{1}, ∅, ∅] (by decide +kernel)
  have key : ∀ m s b, (∃ cs, dictGet exBias.items "x".toList = some cs ∧ dictGet cs m = some s) →
      Denotes .mass s b → b = [{1}, ∅, {1}] ∨ b = [{1}, ∅, ∅] := by
    rintro m s b ⟨cs, h1, h2⟩ hden
    rw [show dictGet exBias.items "x".toList =
      some [("a".toList, mass [1, 2, 1]), ("b".toList, mass [1, 3])] from rfl, Option.some.injEq] at h1
    subst h1
    have := dictGet_mem h2
    simp only [List.mem_cons, List.not_mem_nil, or_false, Prod.mk.injEq] at this
    rcases this with ⟨_, rfl⟩ | ⟨_, rfl⟩
    · exact Or.inl (denotes_unique hden (toBString_denotes ha))
    · exact Or.inr (denotes_unique hden (toBString_denotes hb))
  intro label m n sm sn bm bn _ cm cn dm dn
  have hlab : label = "x".toList := by
    obtain ⟨cs, h1, _⟩ := cm
    have := dictGet_mem h1
    simp only [exBias, AgrData.items, List.mem_cons, List.not_mem_nil, or_false, Prod.mk.injEq] at this
    exact this.1
  subst hlab
  refine ⟨identifyTypes bm bn, fun t => mem_identifyTypes, ?_⟩
  rcases key m sm bm cm dm with rfl | rfl <;> rcases key n sn bn cn dn with rfl | rfl <;> decide +kernel

/-- C50 refuted: for two coders who agree on a short item with few boundaries and on a long item with
many, the bias is -1/4. -/
theorem C50_refuted :
    artsteinPoesioBias ascN (compareB .ascending 2 .default) .mass false
      (.dict [("x".toList, [("a".toList, mass [1, 3]), ("b".toList, mass [1, 3])]),
        ("y".toList, [("a".toList, mass (List.replicate 10 1)), ("b".toList, mass (List.replicate 10 1))])]) =
      .ok (.value (.dec (-1 / 4))) := by
  decide +kernel

/-! ## C63 -/

/-- C63: actual agreement pools the boundary similarity of all ordered pairs of coders over all
items. -/
theorem C63_actual {o : ClassOrder Name} {rt : Runtime} {nT : ℤ} {kw : BoundaryFormat} {data : AgrData} {x : PyNum} (hd : IsDict data.items)
    (hv : AllValid (agrFormat kw data) data.items)
    (hs : agrFormat kw data ≠ .sets ∨ AllShared rt (agrFormat kw data) data.items)
    {N D : Name → Name → Name → ℚ}
    (hC : Scores (compareB rt nT .default (agrFormat kw data)) data.items N D)
    (h : actualAgreement o (compareB rt nT .default) kw data = .ok x) :
    x.val = pooled data.items (getCoders data) N D := by
  have hs' := hs.elim (fun h => allShared_of (rt := rt) h) (fun h => h)
  have hn := rowsNoFlt_default rt nT (agrFormat kw data) (jobsOf o data)
  obtain ⟨h1, h2⟩ := (actual_ok x).1 h
  rw [(actualOfParts_ok hn h2).2]
  exact pooled_form hd hC h1 (rowsSym_compareB ⟨rfl, Or.inr rfl, Or.inr rfl⟩ hd hv hs' hs')

/-- C63: pi's expected agreement is the square of the mean rate at which coders place boundaries. -/
theorem C63_pi {o : ClassOrder Name} {rt : Runtime} {nT : ℤ} {kw : BoundaryFormat}
    {data : AgrData} {aa : PyNum} {ae : PyNum} (hd : IsDict data.items)
    (hv : AllValid (agrFormat kw data) data.items)
    {B : Name → Name → ℕ} {P : Name → Name → Name → ℕ}
    (hC : Counts (agrFormat kw data) data.items B P)
    (h : fleissPi o (compareB rt nT .default) kw true data = .ok (.parts aa ae)) :
    ae.val = meanRate data.items (getCoders data) B P ^ 2 := by
  have hn := rowsNoFlt_default rt nT (agrFormat kw data) (jobsOf o data)
  obtain ⟨_, g2, _, _, _, g6⟩ := (fleissPi_ok hn true _).1 h
  simp only [agrOut, if_true, AgrOut.parts.injEq] at g6
  rw [g6.2]
  exact piAe_form hd hv (rowsAre_default g2) hC

/-- C63: kappa's expected agreement is the mean over ordered pairs of coders of the product of their
own rates. -/
theorem C63_kappa {o : ClassOrder Name} {rt : Runtime} {nT : ℤ} {kw : BoundaryFormat}
    {data : AgrData} {aa : PyNum} {ae : PyNum} (hd : IsDict data.items)
    (hv : AllValid (agrFormat kw data) data.items)
    {B : Name → Name → ℕ} {P : Name → Name → Name → ℕ}
    (hC : Counts (agrFormat kw data) data.items B P)
    (h : fleissKappa o (compareB rt nT .default) kw true data = .ok (.parts aa ae)) :
    ae.val = meanProduct (getCoders data) (coderRate data.items (getCoders data) B P) := by
  have hn := rowsNoFlt_default rt nT (agrFormat kw data) (jobsOf o data)
  obtain ⟨_, _, g2, _, _, _, g6⟩ := (fleissKappa_ok hn true _).1 h
  simp only [agrOut, if_true, AgrOut.parts.injEq] at g6
  rw [g6.2]
  exact kappaAe_form hd hv (rowsAre_default g2) hC

/-- The boundary string a coder gave an item. -/
def stringOf (fmt : BoundaryFormat) (items : Items) (l m : Name) : BString :=
  match ((dictGet items l).getD []) |> fun cs => dictGet cs m with
  | none => []
  | some s => (toBString fmt s).toOption.getD []

theorem stringOf_eq {fmt : BoundaryFormat} {items : Items} {l m : Name} {s : Seg} {b : BString}
    (h : Coded items l m s) (hb : Denotes fmt s b) : stringOf fmt items l m = b := by
  obtain ⟨cs, h1, h2⟩ := h
  simp only [stringOf, h1, Option.getD_some, h2, toBString_denotes hb, Except.toOption]

/-- The counts of C63 always exist. -/
theorem counts_exist (fmt : BoundaryFormat) (items : Items) : ∃ B P, Counts fmt items B P := by
  refine ⟨fun l m => boundaryCount (stringOf fmt items l m),
    fun l m n => (stringOf fmt items l m).length *
      (identifyTypes (stringOf fmt items l m) (stringOf fmt items l n)).card, ?_, ?_⟩
  · intro label m s b hc hb
    simp only [stringOf_eq hc hb]
  · intro label m n sm sn bm bn h1 h2 h3 h4
    exact ⟨identifyTypes bm bn, fun t => mem_identifyTypes, by
      simp only [stringOf_eq h1 h3, stringOf_eq h2 h4]⟩

/-- The rate 17/72 of the three coders above, squared, is the expected agreement of pi. -/
example :
    let B : Name → Name → ℕ := fun l m => if l = "y".toList ∧ m = "a".toList then 2 else 1
    let P : Name → Name → Name → ℕ := fun l _ _ => if l = "x".toList then 4 else 6
    meanRate exAgr.items (getCoders exAgr) B P = 17 / 72 ∧
    fleissPi ascN (compareB .ascending 2 .default) .mass true exAgr =
      .ok (.parts (.dec (5 / 8)) (.dec ((17 / 72) ^ 2))) ∧
    meanProduct (getCoders exAgr) (coderRate exAgr.items (getCoders exAgr) B P) = 4 / 75 := by
  decide +kernel

end SegEval.Props
