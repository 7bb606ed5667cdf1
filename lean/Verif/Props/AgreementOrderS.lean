import Verif.Props.AgreementOrder
import Verif.Props.AgreementS

/-!
# C76, C88, C89 with segmentation similarity as the comparison
-/

namespace SegEval.Props

open SegEval Spec

section
variable {o : ClassOrder Name} {rt : Runtime} {nT : ℤ} {kw : BoundaryFormat} {data : AgrData}

/-! ## C76 -/

theorem kappa_value {out : AgrOut} (h : fleissKappa o (compareB rt nT .default) kw false data = .ok out) :
    ∃ w, out = .value w := by
  obtain ⟨_, _, _, _, _, _, rfl⟩ :=
    (fleissKappa_ok (rowsNoFlt_default rt nT (agrFormat kw data) (jobsOf o data)) false out).1 h
  exact ⟨_, rfl⟩

theorem pi_value {out : AgrOut} (h : fleissPi o (compareB rt nT .default) kw false data = .ok out) :
    ∃ w, out = .value w := by
  obtain ⟨_, _, _, _, _, rfl⟩ :=
    (fleissPi_ok (rowsNoFlt_default rt nT (agrFormat kw data) (jobsOf o data)) false out).1 h
  exact ⟨_, rfl⟩

/-- C76: with segmentation similarity too, kappa is at least -1/3 when all comparisons of an item are of
the same size. -/
theorem C76_segmentation_kappa (hd : IsDict data.items) (hv : AllValid (agrFormat kw data) data.items)
    (hs : TypesShared rt kw data) {size : Name → ℕ}
    (hz : ItemSizes (agrFormat kw data) data.items size) {v : PyNum}
    (h : fleissKappa o (compareS rt nT .default) kw false data = .ok (.value v)) :
    -1 / 3 ≤ v.val := by
  obtain ⟨g1, -, g3⟩ := C96_kappa (o := o) (rt := rt) (nT := nT) hd hv hs
  obtain ⟨out, hB⟩ := (g1 false).1 ⟨_, h⟩
  obtain ⟨w, rfl⟩ := kappa_value hB
  exact (C76_kappa hd hv hs hz hB).trans (g3 _ _ hB h)

/-- C76: the same in every format with a single boundary type, for any number of coders and items of any
size. -/
theorem C76_segmentation_one_type (hd : IsDict data.items) (hv : AllValid (agrFormat kw data) data.items)
    (hf : agrFormat kw data ≠ .sets) {v : PyNum}
    (h : fleissKappa o (compareS rt nT .default) kw false data = .ok (.value v)) :
    -1 / 3 ≤ v.val := by
  obtain ⟨g1, -, g3⟩ := C96_kappa (o := o) (rt := rt) (nT := nT) hd hv (.inl hf)
  obtain ⟨out, hB⟩ := (g1 false).1 ⟨_, h⟩
  obtain ⟨w, rfl⟩ := kappa_value hB
  exact (C76_kappa_one_type hd hv hf hB).trans (g3 _ _ hB h)

/-- C76: the same for two coders, with any boundary types and items of any size. -/
theorem C76_segmentation_two (hd : IsDict data.items) (hv : AllValid (agrFormat kw data) data.items)
    (hs : TypesShared rt kw data) (h2 : (getCoders data).card = 2) {v : PyNum}
    (h : fleissKappa o (compareS rt nT .default) kw false data = .ok (.value v)) :
    -1 / 3 ≤ v.val := by
  obtain ⟨g1, -, g3⟩ := C96_kappa (o := o) (rt := rt) (nT := nT) hd hv hs
  obtain ⟨out, hB⟩ := (g1 false).1 ⟨_, h⟩
  obtain ⟨w, rfl⟩ := kappa_value hB
  exact (C76_kappa_two hd hv hs h2 hB).trans (g3 _ _ hB h)

/-- C76: the same for pi, when all comparisons are of the same size. -/
theorem C76_segmentation_pi (hd : IsDict data.items) (hv : AllValid (agrFormat kw data) data.items)
    (hs : TypesShared rt kw data) {size : ℕ} (hz : SameSize (agrFormat kw data) data.items size)
    {v : PyNum} (h : fleissPi o (compareS rt nT .default) kw false data = .ok (.value v)) :
    -1 / 3 ≤ v.val := by
  obtain ⟨g1, -, g3⟩ := C96_pi (o := o) (rt := rt) (nT := nT) hd hv hs
  obtain ⟨out, hB⟩ := (g1 false).1 ⟨_, h⟩
  obtain ⟨w, rfl⟩ := pi_value hB
  exact (C76_pi hd hv hs hz hB).trans (g3 _ _ hB h)

/-- C76: both reach the bound, with data that meets the hypotheses. -/
theorem C76_segmentation_attained :
    fleissKappa ascN (compareS .ascending 2 .default) .mass false exLow = .ok (.value (.dec (-1 / 3))) ∧
    fleissPi ascN (compareS .ascending 2 .default) .mass false exLow = .ok (.value (.dec (-1 / 3))) ∧
    IsDict exLow.items ∧ AllValid .mass exLow.items ∧ SameSize .mass exLow.items 1 :=
  ⟨by decide +kernel, by decide +kernel, exLow_dict, C76_attained.2.2.2, exLow_size⟩

/-! ## C88 -/

theorem bias_defined {cmp : Compare} (hn : RowsNoFlt cmp (agrFormat kw data) (jobsOf o data))
    (key : ∀ rp, (∃ out, fleissPi o cmp kw rp data = .ok out) ↔
      ∃ out, fleissKappa o cmp kw rp data = .ok out) (rp : Bool) :
    (∃ out, fleissPi o cmp kw rp data = .ok out) ↔
      ∃ out, artsteinPoesioBias o cmp kw rp data = .ok out := by
  constructor
  · rintro ⟨out, h⟩
    obtain ⟨a1, a2, a3, a4, a5, _⟩ := (fleissPi_ok hn rp out).1 h
    have hp := (fleissPi_ok hn true _).2 ⟨a1, a2, a3, a4, a5, rfl⟩
    obtain ⟨out', h'⟩ := (key true).1 ⟨_, hp⟩
    obtain ⟨_, _, _, _, _, _, b⟩ := (fleissKappa_ok hn true out').1 h'
    subst b
    unfold artsteinPoesioBias
    rw [hp, h']
    simp only [agrOut, if_true, PyNum.sub]
    cases rp
    · exact ⟨_, rfl⟩
    · exact ⟨_, rfl⟩
  · rintro ⟨out, h⟩
    obtain ⟨out', h'⟩ : ∃ out', fleissPi o cmp kw true data = .ok out' := by
      unfold artsteinPoesioBias at h
      cases hp : fleissPi o cmp kw true data with
      | error e => rw [hp] at h; cases h
      | ok out' => exact ⟨out', rfl⟩
    obtain ⟨a1, a2, a3, a4, a5, _⟩ := (fleissPi_ok hn true _).1 h'
    exact ⟨_, (fleissPi_ok hn rp _).2 ⟨a1, a2, a3, a4, a5, rfl⟩⟩

/-- C88: with segmentation similarity too, pi, kappa and the bias are defined for the same data. -/
theorem C88_segmentation_defined (hd : IsDict data.items) (hc : CodersMatch data)
    (hv : AllValid (agrFormat kw data) data.items) (hs : TypesShared rt kw data) (rp : Bool) :
    ((∃ out, fleissPi o (compareS rt nT .default) kw rp data = .ok out) ↔
      ∃ out, fleissKappa o (compareS rt nT .default) kw rp data = .ok out) ∧
    ((∃ out, fleissPi o (compareS rt nT .default) kw rp data = .ok out) ↔
      ∃ out, artsteinPoesioBias o (compareS rt nT .default) kw rp data = .ok out) := by
  have key : ∀ rp, (∃ out, fleissPi o (compareS rt nT .default) kw rp data = .ok out) ↔
      ∃ out, fleissKappa o (compareS rt nT .default) kw rp data = .ok out := fun rp =>
    ((C96_pi (o := o) (rt := rt) (nT := nT) hd hv hs).1 rp).trans
      ((C88_defined hd hc hv rp).1.trans ((C96_kappa (o := o) (rt := rt) (nT := nT) hd hv hs).1 rp).symm)
  exact ⟨key rp, bias_defined (rowsNoFlt_segmentation (rowBoth_all hd hv hs)) key rp⟩

/-- C88: with segmentation similarity too, kappa is above pi, equal to it or below it as the bias is
positive, zero or negative, unless the coders agree completely; under complete agreement both are 1. -/
theorem C88_segmentation_order (hd : IsDict data.items) (hc : CodersMatch data)
    (hv : AllValid (agrFormat kw data) data.items) (hs : TypesShared rt kw data) {p k b : PyNum}
    (hp : fleissPi o (compareS rt nT .default) kw false data = .ok (.value p))
    (hk : fleissKappa o (compareS rt nT .default) kw false data = .ok (.value k))
    (hb : artsteinPoesioBias o (compareS rt nT .default) kw false data = .ok (.value b)) :
    (p.val < k.val ↔ 0 < b.val ∧ ¬ CompleteAgreement (agrFormat kw data) data.items) ∧
    (k.val < p.val ↔ b.val < 0 ∧ ¬ CompleteAgreement (agrFormat kw data) data.items) ∧
    (p.val = k.val ↔ b.val = 0 ∨ CompleteAgreement (agrFormat kw data) data.items) := by
  obtain ⟨p', x, e, hp1, hp2, hp3, hp4, hp5, hp6, _⟩ := C95_pi hd hc hv hs hp
  obtain ⟨k', x', e', hk1, hk2, hk3, hk4, hk5, hk6, _⟩ := C95_kappa hd hc hv hs hk
  obtain ⟨_, hx1, hx2⟩ := C95_actual hd hc hv hs hp2
  have hbv : b.val = e - e' := by
    unfold artsteinPoesioBias at hb
    rw [hp3, hk3] at hb
    simp only [PyNum.sub, Bool.false_eq_true, if_false, Except.ok.injEq, AgrOut.value.injEq] at hb
    rw [← hb]; rfl
  rw [hp2] at hk2
  cases hp1; cases hk1; cases hk2
  have h1 : 0 < 1 - e := by linarith
  have h2 : 0 < 1 - e' := by linarith
  have hdiff : k.val - p.val = (1 - x.val) / ((1 - e) * (1 - e')) * b.val := by
    rw [hp6, hk6, hbv]
    field_simp
    ring
  have h12 : 0 < (1 - e) * (1 - e') := mul_pos h1 h2
  rw [← hx2]
  rcases eq_or_lt_of_le hx1 with hx | hx
  · have : k.val - p.val = 0 := by rw [hdiff, hx]; simp
    have hkp : k.val = p.val := by linarith
    rw [hkp, hx]
    simp
  · have hx3 : 0 < 1 - x.val := by linarith
    have hxn : x.val ≠ 1 := ne_of_lt hx
    simp only [hxn, not_false_eq_true, and_true, or_false]
    have hs : 0 < (1 - x.val) / ((1 - e) * (1 - e')) := div_pos hx3 h12
    refine ⟨?_, ?_, ?_⟩
    · rw [← sub_pos, hdiff, mul_pos_iff_of_pos_left hs]
    · rw [← sub_neg, hdiff]
      constructor
      · intro h
        by_contra h'
        have := mul_nonneg hs.le (not_lt.1 h')
        linarith
      · exact mul_neg_of_pos_of_neg hs
    · rw [eq_comm, ← sub_eq_zero, hdiff, mul_eq_zero]
      simp [hs.ne']

end

/-! ## C89 -/

section
variable {o : ClassOrder Name} {rt : Runtime} {nT : ℤ} {kw kw' fmt : BoundaryFormat} {d d' : AgrData}
  {k : ℕ}

theorem compareS_noFlt {a b : Seg} {num den : PyNum}
    (h : compareS rt nT .default fmt a b = .ok (num, den)) : num.NoFlt ∧ den.NoFlt := by
  unfold compareS at h
  split at h
  · cases hs : boundaryStatistics rt fmt nT .default a b with
    | error e => simp [segmentationSimilarity, hs] at h
    | ok st =>
      obtain ⟨sa, sb, c, -, -, -, -, hc, -⟩ := default_facts hs
      simp only [segmentationSimilarity, hs, hc, PyNum.sub, if_true, Except.ok.injEq, Prod.mk.injEq] at h
      obtain ⟨rfl, rfl⟩ := h
      exact ⟨trivial, trivial⟩
  · cases h

theorem rowsNoFlt_compareS (js : List Job) : RowsNoFlt (compareS rt nT .default) fmt js := by
  intro j hj
  cases h : jobRow (compareS rt nT .default) fmt j with
  | error e =>
    have : rowD (compareS rt nT .default) fmt j = default := by simp [rowD, h]
    rw [this]; exact ⟨trivial, trivial⟩
  | ok r =>
    have : rowD (compareS rt nT .default) fmt j = r := by simp [rowD, h]
    rw [this]
    obtain ⟨sa, sb, -, -, h3, -⟩ := jobRow_parts h
    exact compareS_noFlt h3

/-- C89: with segmentation similarity too, agreement does not change when every item occurs the same
number of times. -/
theorem C89_segmentation (hf : ReadAs kw d fmt) (hf' : ReadAs kw' d' fmt) (hk : k ≠ 0)
    (hd : IsDict d.items) (hd' : IsDict d'.items) (hm : CodersMatch d) (hm' : CodersMatch d')
    (h : Repeated k d.items d'.items) (rp : Bool) :
    (∀ q, (∃ x, actualAgreement o (compareS rt nT .default) kw d = .ok x ∧ x.val = q) ↔
      ∃ x, actualAgreement o (compareS rt nT .default) kw' d' = .ok x ∧ x.val = q) ∧
    (∀ x, fleissPi o (compareS rt nT .default) kw rp d = .ok x ↔
      fleissPi o (compareS rt nT .default) kw' rp d' = .ok x) ∧
    (∀ x, fleissKappa o (compareS rt nT .default) kw rp d = .ok x ↔
      fleissKappa o (compareS rt nT .default) kw' rp d' = .ok x) ∧
    ∀ x, artsteinPoesioBias o (compareS rt nT .default) kw rp d = .ok x ↔
      artsteinPoesioBias o (compareS rt nT .default) kw' rp d' = .ok x :=
  repeat_any (rowsNoFlt_compareS _) (rowsNoFlt_compareS _) hf hf' hk hd hd' hm hm' h rp

/-- The bias of `exAgr` is positive and kappa is above pi; and its items twice have the same kappa. -/
example :
    fleissPi ascN (compareS .ascending 2 .default) .mass false exAgr = .ok (.value (.dec (21883 / 24475))) ∧
    fleissKappa ascN (compareS .ascending 2 .default) .mass false exAgr = .ok (.value (.dec (127 / 142))) ∧
    fleissKappa ascN (compareS .ascending 2 .default) .mass false exTwice =
      .ok (.value (.dec (127 / 142))) := by
  have hk : fleissKappa ascN (compareS .ascending 2 .default) .mass false exAgr =
      .ok (.value (.dec (127 / 142))) := by decide +kernel
  exact ⟨by decide +kernel, hk, ((C89_segmentation (.dict exAgr.items) (.dict exTwice.items) (k := 2)
    (by decide) exAgr_dict exTwice_dict (codersMatch_dict exAgr_dict) (codersMatch_dict exTwice_dict)
    exTwice_repeated false).2.2.1 _).1 hk⟩

end

end SegEval.Props
