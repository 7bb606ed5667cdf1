import Verif.Lemmas.AgreementRepeat
import Verif.Props.AgreementRange
import Verif.Spec.DatasetFormat

/-!
# C88, C89: pi against kappa, and items that occur several times
-/

namespace SegEval.Props

open SegEval Spec

section
variable {o : ClassOrder Name} {rt : Runtime} {nT : ℤ} {kw : BoundaryFormat} {data : AgrData}

/-! ## C88 -/

/-- C88: pi, kappa and the bias are defined for the same data. -/
theorem C88_defined (hd : IsDict data.items) (hc : CodersMatch data)
    (hv : AllValid (agrFormat kw data) data.items) (rp : Bool) :
    ((∃ out, fleissPi o (compareB rt nT .default) kw rp data = .ok out) ↔
      ∃ out, fleissKappa o (compareB rt nT .default) kw rp data = .ok out) ∧
    ((∃ out, fleissPi o (compareB rt nT .default) kw rp data = .ok out) ↔
      ∃ out, artsteinPoesioBias o (compareB rt nT .default) kw rp data = .ok out) := by
  have hn := rowsNoFlt_default rt nT (agrFormat kw data) (jobsOf o data)
  have key : ∀ rp, (∃ out, fleissPi o (compareB rt nT .default) kw rp data = .ok out) ↔
      ∃ out, fleissKappa o (compareB rt nT .default) kw rp data = .ok out := by
    intro rp
    constructor
    · rintro ⟨out, h⟩
      obtain ⟨_, h1, h2, _⟩ := (fleissPi_ok hn rp out).1 h
      obtain ⟨x, hx⟩ := (actualOfParts_defined hn).2 h2
      have ha := (actual_ok (kw := kw) x).2 ⟨h1, hx⟩
      exact (C49_kappa_partial hd hc hv ha rp).2 ((C49_pi_partial hd hc hv ha rp).1 ⟨out, h⟩)
    · rintro ⟨out, h⟩
      obtain ⟨_, _, h1, h2, _⟩ := (fleissKappa_ok hn rp out).1 h
      obtain ⟨x, hx⟩ := (actualOfParts_defined hn).2 h2
      have ha := (actual_ok (kw := kw) x).2 ⟨h1, hx⟩
      exact (C49_pi_partial hd hc hv ha rp).2 ((C49_kappa_partial hd hc hv ha rp).1 ⟨out, h⟩)
  refine ⟨key rp, ?_⟩
  constructor
  · rintro ⟨out, h⟩
    obtain ⟨a1, a2, a3, a4, a5, _⟩ := (fleissPi_ok hn rp out).1 h
    have hp := (fleissPi_ok hn true _).2 ⟨a1, a2, a3, a4, a5, rfl⟩
    obtain ⟨out', h'⟩ := (key true).1 ⟨_, hp⟩
    obtain ⟨_, _, _, _, _, _, b⟩ := (fleissKappa_ok hn true out').1 h'
    subst b
    unfold artsteinPoesioBias
    rw [hp, h']
    simp only [agrOut, if_true, PyNum.sub]
    cases rp
    · exact ⟨_, rfl⟩
    · exact ⟨_, rfl⟩
  · rintro ⟨out, h⟩
    obtain ⟨aa, p, k, h1, _, _⟩ := C50_value h
    obtain ⟨a1, a2, a3, a4, a5, _⟩ := (fleissPi_ok hn true _).1 h1
    exact ⟨_, (fleissPi_ok hn rp _).2 ⟨a1, a2, a3, a4, a5, rfl⟩⟩

/-- C88: unless the coders agree completely, kappa is above pi, equal to it or below it as the bias is
positive, zero or negative; under complete agreement both are 1. -/
theorem C88_order (hd : IsDict data.items) (hc : CodersMatch data)
    (hv : AllValid (agrFormat kw data) data.items) {p k b : PyNum}
    (hp : fleissPi o (compareB rt nT .default) kw false data = .ok (.value p))
    (hk : fleissKappa o (compareB rt nT .default) kw false data = .ok (.value k))
    (hb : artsteinPoesioBias o (compareB rt nT .default) kw false data = .ok (.value b)) :
    (p.val < k.val ↔ 0 < b.val ∧ ¬ CompleteAgreement (agrFormat kw data) data.items) ∧
    (k.val < p.val ↔ b.val < 0 ∧ ¬ CompleteAgreement (agrFormat kw data) data.items) ∧
    (p.val = k.val ↔ b.val = 0 ∨ CompleteAgreement (agrFormat kw data) data.items) := by
  obtain ⟨p', x, e, hp1, hp2, hp3, hp4, hp5, hp6, _⟩ := C48_pi hd hc hv hp
  obtain ⟨k', x', e', hk1, hk2, hk3, hk4, hk5, hk6, _⟩ := C48_kappa hd hc hv hk
  obtain ⟨aa, e1, e2, hb1, hb2, hb3⟩ := C50_value hb
  obtain ⟨_, hx1, hx2⟩ := C46_actual hd hc hv hp2
  rw [hp2] at hk2
  rw [hp3] at hb1
  rw [hk3] at hb2
  simp only [AgrOut.value.injEq, Except.ok.injEq, AgrOut.parts.injEq, PyNum.dec.injEq,
    Bool.false_eq_true, if_false] at hp1 hk1 hk2 hb1 hb2 hb3
  subst hp1; subst hk1; subst hk2
  obtain ⟨-, rfl⟩ := hb1
  obtain ⟨-, rfl⟩ := hb2
  have hbv : b.val = e - e' := by rw [hb3]; rfl
  have h1 : 0 < 1 - e := by linarith
  have h2 : 0 < 1 - e' := by linarith
  have hdiff : k.val - p.val = (1 - x.val) * b.val / ((1 - e) * (1 - e')) := by
    rw [hp6, hk6, hbv]
    field_simp
    ring
  have h12 : 0 < (1 - e) * (1 - e') := mul_pos h1 h2
  rw [← hx2]
  rcases eq_or_lt_of_le hx1 with hx | hx
  · have : k.val - p.val = 0 := by rw [hdiff, hx]; simp
    have hkp : k.val = p.val := by linarith
    rw [hkp, hx]
    simp
  · have hx3 : 0 < 1 - x.val := by linarith
    have hxn : x.val ≠ 1 := ne_of_lt hx
    simp only [hxn, not_false_eq_true, and_true, or_false]
    have hs : 0 < (1 - x.val) / ((1 - e) * (1 - e')) := div_pos hx3 h12
    have hdiff' : k.val - p.val = (1 - x.val) / ((1 - e) * (1 - e')) * b.val := by
      rw [hdiff]; ring
    refine ⟨?_, ?_, ?_⟩
    · rw [← sub_pos, hdiff', mul_pos_iff_of_pos_left hs]
    · rw [← sub_neg, hdiff']
      constructor
      · intro h
        by_contra h'
        have := mul_nonneg hs.le (not_lt.1 h')
        linarith
      · exact mul_neg_of_pos_of_neg hs
    · rw [eq_comm, ← sub_eq_zero, hdiff', mul_eq_zero]
      simp [hs.ne']

/-- A positive bias: kappa is above pi. -/
example : (2951 : ℚ) / 4895 < 343 / 568 ∧ 0 < (313 : ℚ) / 129600 := by
  have hp : fleissPi ascN (compareB .ascending 2 .default) .mass false exAgr =
      .ok (.value (.dec (2951 / 4895))) := by decide +kernel
  have hk : fleissKappa ascN (compareB .ascending 2 .default) .mass false exAgr =
      .ok (.value (.dec (343 / 568))) := by decide +kernel
  have hb : artsteinPoesioBias ascN (compareB .ascending 2 .default) .mass false exAgr =
      .ok (.value (.dec (313 / 129600))) := by decide +kernel
  have h := (C88_order exAgr_dict (codersMatch_dict exAgr_dict) exAgr_valid hp hk hb).1.1
    (by simp only [PyNum.val]; norm_num)
  simp only [PyNum.val] at h
  exact ⟨by norm_num, h.1⟩

/-- A negative bias under complete agreement: both are 1. -/
example : fleissPi ascN (compareB .ascending 2 .default) .mass false (.dict
      [("x".toList, [("a".toList, mass [1, 3]), ("b".toList, mass [1, 3])]),
        ("y".toList, [("a".toList, mass (List.replicate 10 1)), ("b".toList, mass (List.replicate 10 1))])]) =
      .ok (.value (.dec 1)) ∧
    fleissKappa ascN (compareB .ascending 2 .default) .mass false (.dict
      [("x".toList, [("a".toList, mass [1, 3]), ("b".toList, mass [1, 3])]),
        ("y".toList, [("a".toList, mass (List.replicate 10 1)), ("b".toList, mass (List.replicate 10 1))])]) =
      .ok (.value (.dec 1)) := by decide +kernel

end

/-! ## C89 -/

section
variable {o : ClassOrder Name} {rt : Runtime} {nT : ℤ} {kw kw' fmt : BoundaryFormat} {d d' : AgrData}
  {k : ℕ}

theorem repeated_coders (hk : k ≠ 0) (hd : IsDict d.items) (hd' : IsDict d'.items) (hm : CodersMatch d)
    (hm' : CodersMatch d') (h : Repeated k d.items d'.items) : getCoders d' = getCoders d := by
  ext c
  rw [hm c, hm' c]
  constructor
  · rintro ⟨l, s, cs, h1, h2⟩
    obtain ⟨l', h3⟩ := (repeated_mem hk h cs).1 ⟨l, dictGet_mem h1⟩
    exact ⟨l', s, cs, dictGet_of_mem hd.1 h3, h2⟩
  · rintro ⟨l, s, cs, h1, h2⟩
    obtain ⟨l', h3⟩ := (repeated_mem hk h cs).2 ⟨l, dictGet_mem h1⟩
    exact ⟨l', s, cs, dictGet_of_mem hd'.1 h3, h2⟩

theorem readAs_format {kw fmt : BoundaryFormat} {d : AgrData} (h : ReadAs kw d fmt) :
    agrFormat kw d = fmt := by cases h <;> rfl

theorem repeat_any {cmp : Compare} (n1 : RowsNoFlt cmp (agrFormat kw d) (jobsOf o d))
    (n2 : RowsNoFlt cmp (agrFormat kw' d') (jobsOf o d')) (hf : ReadAs kw d fmt) (hf' : ReadAs kw' d' fmt) (hk : k ≠ 0) (hd : IsDict d.items)
    (hd' : IsDict d'.items) (hm : CodersMatch d) (hm' : CodersMatch d')
    (h : Repeated k d.items d'.items) (rp : Bool) :
    (∀ q, (∃ x, actualAgreement o cmp kw d = .ok x ∧ x.val = q) ↔
      ∃ x, actualAgreement o cmp kw' d' = .ok x ∧ x.val = q) ∧
    (∀ x, fleissPi o cmp kw rp d = .ok x ↔
      fleissPi o cmp kw' rp d' = .ok x) ∧
    (∀ x, fleissKappa o cmp kw rp d = .ok x ↔
      fleissKappa o cmp kw' rp d' = .ok x) ∧
    ∀ x, artsteinPoesioBias o cmp kw rp d = .ok x ↔
      artsteinPoesioBias o cmp kw' rp d' = .ok x := by
  have hc := repeated_coders hk hd hd' hm hm' h
  have hk' : (k : ℚ) ≠ 0 := by exact_mod_cast hk
  have hrows : RowsOk cmp fmt (jobsOf o d') ↔
      RowsOk cmp fmt (jobsOf o d) := by
    unfold jobsOf; rw [hc]; exact repeated_rowsOk _ _ _ hk h
  have hden : denSum cmp fmt (jobsOf o d') =
      k * denSum cmp fmt (jobsOf o d) := by
    unfold jobsOf; rw [hc]; exact repeated_denSum _ _ _ h
  have hnum : numSum cmp fmt (jobsOf o d') =
      k * numSum cmp fmt (jobsOf o d) := by
    unfold jobsOf; rw [hc]; exact repeated_numSum _ _ _ h
  have hdz : denSum cmp fmt (jobsOf o d') ≠ 0 ↔
      denSum cmp fmt (jobsOf o d) ≠ 0 := by
    rw [hden]; simp [hk']
  have hquot : numSum cmp fmt (jobsOf o d') /
      denSum cmp fmt (jobsOf o d') =
      numSum cmp fmt (jobsOf o d) /
        denSum cmp fmt (jobsOf o d) := by
    rw [hden, hnum, mul_div_mul_left _ _ hk']
  have hpbs : (∀ j ∈ jobsOf o d', (rowD cmp fmt j).pbs ≠ 0) ↔
      ∀ j ∈ jobsOf o d, (rowD cmp fmt j).pbs ≠ 0 := by
    unfold jobsOf; rw [hc]; exact repeated_pbs _ _ _ hk h
  have hpi : piAe cmp fmt (jobsOf o d') =
      piAe cmp fmt (jobsOf o d) := by
    unfold jobsOf; rw [hc]; exact repeated_piAe _ _ _ hk h
  have hka : kappaAe cmp fmt (o.order [] (getCoders d)) (jobsOf o d') =
      kappaAe cmp fmt (o.order [] (getCoders d)) (jobsOf o d) := by
    unfold jobsOf; rw [hc]; exact repeated_kappaAe _ _ _ hk h
  have hta : ∀ c, (tallyOf cmp fmt (jobsOf o d') c).2 ≠ 0 ↔
      (tallyOf cmp fmt (jobsOf o d) c).2 ≠ 0 := by
    intro c
    unfold jobsOf; rw [hc, repeated_tally _ _ _ h]
    simp [hk]
  have htwo : (∀ it ∈ d'.items, 2 ≤ it.2.length) ↔ ∀ it ∈ d.items, 2 ≤ it.2.length := by
    constructor
    · rintro h1 ⟨l, c⟩ h2
      obtain ⟨l', h3⟩ := (repeated_mem hk h c).2 ⟨l, h2⟩
      exact h1 (l', c) h3
    · rintro h1 ⟨l, c⟩ h2
      obtain ⟨l', h3⟩ := (repeated_mem hk h c).1 ⟨l, h2⟩
      exact h1 (l', c) h3
  have hpi' : ∀ rp x, fleissPi o cmp kw rp d = .ok x ↔
      fleissPi o cmp kw' rp d' = .ok x := by
    intro rp x
    rw [fleissPi_ok n1, fleissPi_ok n2, readAs_format hf, readAs_format hf',
      repeated_equalCodings hk h, hrows, hdz, hpbs, hpi, hquot]
  have hka' : ∀ rp x, fleissKappa o cmp kw rp d = .ok x ↔
      fleissKappa o cmp kw' rp d' = .ok x := by
    intro rp x
    rw [fleissKappa_ok n1, fleissKappa_ok n2, readAs_format hf, readAs_format hf',
      repeated_equalCodings hk h, hrows, hdz, hc, hka, hquot, htwo]
    simp only [hta]
  refine ⟨?_, hpi' rp, hka' rp, ?_⟩
  · intro q
    have key : ∀ (kw : BoundaryFormat) (d : AgrData),
        RowsNoFlt cmp (agrFormat kw d) (jobsOf o d) →
        ((∃ x, actualAgreement o cmp kw d = .ok x ∧ x.val = q) ↔
        RowsOk cmp (agrFormat kw d) (jobsOf o d) ∧
        denSum cmp (agrFormat kw d) (jobsOf o d) ≠ 0 ∧
        numSum cmp (agrFormat kw d) (jobsOf o d) /
          denSum cmp (agrFormat kw d) (jobsOf o d) = q) := by
      intro kw d hn
      constructor
      · rintro ⟨x, h1, rfl⟩
        obtain ⟨h2, h3⟩ := (actual_ok x).1 h1
        obtain ⟨h4, h5⟩ := actualOfParts_ok hn h3
        exact ⟨h2, h4, h5.symm⟩
      · rintro ⟨h1, h2, h3⟩
        obtain ⟨x, hx⟩ := (actualOfParts_defined hn).2 h2
        exact ⟨x, (actual_ok x).2 ⟨h1, hx⟩, (actualOfParts_ok hn hx).2.trans h3⟩
    rw [key kw d n1, key kw' d' n2, readAs_format hf, readAs_format hf', hrows, hdz, hquot]
  · intro x
    have e1 : ∀ out, fleissPi o cmp kw true d = .ok out ↔
      fleissPi o cmp kw' true d' = .ok out := hpi' true
    have e2 : ∀ out, fleissKappa o cmp kw true d = .ok out ↔
      fleissKappa o cmp kw' true d' = .ok out := hka' true
    unfold artsteinPoesioBias
    cases p : fleissPi o cmp kw true d with
    | error e =>
      cases p' : fleissPi o cmp kw' true d' with
      | error e' => simp
      | ok v => rw [(e1 v).2 p'] at p; cases p
    | ok v =>
      rw [(e1 v).1 p]
      cases q : fleissKappa o cmp kw true d with
      | error e =>
        cases q' : fleissKappa o cmp kw' true d' with
        | error e' => cases v <;> simp
        | ok v => rw [(e2 v).2 q'] at q; cases q
      | ok w => rw [(e2 w).1 q]

/-- C89: agreement does not change when every item occurs the same number of times. -/
theorem C89_repeat (hf : ReadAs kw d fmt) (hf' : ReadAs kw' d' fmt) (hk : k ≠ 0) (hd : IsDict d.items)
    (hd' : IsDict d'.items) (hm : CodersMatch d) (hm' : CodersMatch d')
    (h : Repeated k d.items d'.items) (rp : Bool) :
    (∀ q, (∃ x, actualAgreement o (compareB rt nT .default) kw d = .ok x ∧ x.val = q) ↔
      ∃ x, actualAgreement o (compareB rt nT .default) kw' d' = .ok x ∧ x.val = q) ∧
    (∀ x, fleissPi o (compareB rt nT .default) kw rp d = .ok x ↔
      fleissPi o (compareB rt nT .default) kw' rp d' = .ok x) ∧
    (∀ x, fleissKappa o (compareB rt nT .default) kw rp d = .ok x ↔
      fleissKappa o (compareB rt nT .default) kw' rp d' = .ok x) ∧
    ∀ x, artsteinPoesioBias o (compareB rt nT .default) kw rp d = .ok x ↔
      artsteinPoesioBias o (compareB rt nT .default) kw' rp d' = .ok x :=
  repeat_any (rowsNoFlt_default rt nT (agrFormat kw d) (jobsOf o d))
    (rowsNoFlt_default rt nT (agrFormat kw' d') (jobsOf o d')) hf hf' hk hd hd' hm hm' h rp

/-- The items of `exAgr`, each twice. -/
def exTwice : AgrData := .dict
  [("x".toList, [("a".toList, mass [2, 3]), ("b".toList, mass [1, 4]), ("c".toList, mass [2, 3])]),
   ("x2".toList, [("a".toList, mass [2, 3]), ("b".toList, mass [1, 4]), ("c".toList, mass [2, 3])]),
   ("y2".toList, [("c".toList, mass [3, 4]), ("b".toList, mass [3, 4]), ("a".toList, mass [3, 2, 2])]),
   ("y".toList, [("c".toList, mass [3, 4]), ("b".toList, mass [3, 4]), ("a".toList, mass [3, 2, 2])])]

theorem exTwice_dict : IsDict exTwice.items := by
  constructor
  · decide +kernel
  · decide +kernel

theorem exTwice_repeated : Repeated 2 exAgr.items exTwice.items := by
  simp only [Repeated, exAgr, exTwice, AgrData.items, List.map_cons, List.map_nil, List.replicate_succ,
    List.replicate_zero, List.flatten_cons, List.flatten_nil, List.append_nil, List.cons_append,
    List.nil_append]
  exact .cons _ ((List.Perm.swap _ _ _))

example : fleissPi ascN (compareB .ascending 2 .default) .mass false exTwice =
    .ok (.value (.dec (2951 / 4895))) :=
  ((C89_repeat (.dict exAgr.items) (.dict exTwice.items) (k := 2) (by decide) exAgr_dict exTwice_dict
    (codersMatch_dict exAgr_dict) (codersMatch_dict exTwice_dict) exTwice_repeated false).2.1 _).1
    (by decide +kernel)

end

end SegEval.Props
