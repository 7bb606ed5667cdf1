import Verif.Lemmas.AgreementJoin
import Verif.Props.AgreementOrder
import Verif.Props.AgreementS

/-!
# C106: agreement over joined data

The items of two data sets by the same coders are put together.
-/

namespace SegEval.Props

open SegEval Spec

section
variable {o : ClassOrder Name} {rt : Runtime} {nT : ℤ} {kw kw' kw'' fmt : BoundaryFormat}
  {a b c : AgrData}

theorem joined_coders (da : IsDict a.items) (db : IsDict b.items) (dc : IsDict c.items)
    (ma : CodersMatch a) (mb : CodersMatch b) (mc : CodersMatch c)
    (hab : ∀ m, (∃ l s, Coded a.items l m s) ↔ ∃ l s, Coded b.items l m s)
    (h : Joined a.items b.items c.items) :
    getCoders b = getCoders a ∧ getCoders c = getCoders a := by
  refine ⟨by ext m; rw [ma m, mb m, hab m], ?_⟩
  ext m
  rw [ma m, mc m]
  constructor
  · rintro ⟨l, s, cs, h1, h2⟩
    rcases (joined_mem h cs).1 ⟨l, dictGet_mem h1⟩ with ⟨l', h3⟩ | ⟨l', h3⟩
    · exact ⟨l', s, cs, dictGet_of_mem da.1 h3, h2⟩
    · exact (hab m).2 ⟨l', s, cs, dictGet_of_mem db.1 h3, h2⟩
  · rintro ⟨l, s, cs, h1, h2⟩
    obtain ⟨l', h3⟩ := (joined_mem h cs).2 (Or.inl ⟨l, dictGet_mem h1⟩)
    exact ⟨l', s, cs, dictGet_of_mem dc.1 h3, h2⟩

theorem actual_join {cmp : Compare}
    (hc1 : getCoders b = getCoders a) (hc2 : getCoders c = getCoders a)
    (fa : agrFormat kw a = fmt) (fb : agrFormat kw' b = fmt) (fc : agrFormat kw'' c = fmt)
    (h : Joined a.items b.items c.items)
    (nf : RowsNoFlt cmp fmt (jobsOf o a) ∧ RowsNoFlt cmp fmt (jobsOf o b) ∧
      RowsNoFlt cmp fmt (jobsOf o c))
    (rows : ∀ d, d = a ∨ d = b → RowsOk cmp fmt (jobsOf o d) → RowsAre cmp fmt (jobsOf o d))
    {x y : PyNum} (hx : actualAgreement o cmp kw a = .ok x) (hy : actualAgreement o cmp kw' b = .ok y) :
    ∃ z, actualAgreement o cmp kw'' c = .ok z ∧ Between x.val y.val z.val := by
  obtain ⟨a1, a2⟩ := (actual_ok x).1 hx
  obtain ⟨b1, b2⟩ := (actual_ok y).1 hy
  rw [fa] at a1 a2
  rw [fb] at b1 b2
  obtain ⟨a3, a4⟩ := actualOfParts_ok nf.1 a2
  obtain ⟨b3, b4⟩ := actualOfParts_ok nf.2.1 b2
  have a5 := (actual_unit (rows a (Or.inl rfl) a1) (denSum_nil a3)).1
  have b5 := (actual_unit (rows b (Or.inr rfl) b1) (denSum_nil b3)).1
  have hden : denSum cmp fmt (jobsOf o c) = denSum cmp fmt (jobsOf o a) + denSum cmp fmt (jobsOf o b) := by
    unfold jobsOf; rw [hc1, hc2]; exact joined_denSum _ _ _ h
  have hnum : numSum cmp fmt (jobsOf o c) = numSum cmp fmt (jobsOf o a) + numSum cmp fmt (jobsOf o b) := by
    unfold jobsOf; rw [hc1, hc2]; exact joined_numSum _ _ _ h
  have hok : RowsOk cmp fmt (jobsOf o c) := by
    have := (joined_rowsOk cmp fmt (o.order [] (getCoders a)) h).2
      ⟨a1, by unfold jobsOf at b1; rw [hc1] at b1; exact b1⟩
    unfold jobsOf; rw [hc2]; exact this
  obtain ⟨z, hz⟩ := (actualOfParts_defined nf.2.2).2 (by rw [hden]; exact (add_pos a5 b5).ne')
  refine ⟨z, (actual_ok z).2 (by rw [fc]; exact ⟨hok, hz⟩), ?_⟩
  rw [(actualOfParts_ok nf.2.2 hz).2, a4, b4, hden, hnum]
  exact between_mediant a5 b5

/-- C106: if the same coders coded two data sets, the actual agreement over both together is between
the two separate ones, strictly if they differ. -/
theorem C106_actual_partial (fa : ReadAs kw a fmt) (fb : ReadAs kw' b fmt) (fc : ReadAs kw'' c fmt)
    (da : IsDict a.items) (db : IsDict b.items) (dc : IsDict c.items)
    (ma : CodersMatch a) (mb : CodersMatch b) (mc : CodersMatch c)
    (hab : ∀ m, (∃ l s, Coded a.items l m s) ↔ ∃ l s, Coded b.items l m s)
    (h : Joined a.items b.items c.items) {x y : PyNum}
    (hx : actualAgreement o (compareB rt nT .default) kw a = .ok x)
    (hy : actualAgreement o (compareB rt nT .default) kw' b = .ok y) :
    ∃ z, actualAgreement o (compareB rt nT .default) kw'' c = .ok z ∧
      Between x.val y.val z.val := by
  obtain ⟨hc1, hc2⟩ := joined_coders da db dc ma mb mc hab h
  exact actual_join hc1 hc2 (readAs_format fa) (readAs_format fb) (readAs_format fc) h
    ⟨rowsNoFlt_default _ _ _ _, rowsNoFlt_default _ _ _ _, rowsNoFlt_default _ _ _ _⟩
    (fun _ _ hr => rowsAre_default hr) hx hy

theorem joined_shared (h : Joined a.items b.items c.items) (da : IsDict a.items) (db : IsDict b.items) :
    ∀ l m s, Coded c.items l m s →
      (∃ l', Coded a.items l' m s) ∨ ∃ l', Coded b.items l' m s := by
  rintro l m s ⟨cs, h1, h2⟩
  rcases (joined_mem h cs).1 ⟨l, dictGet_mem h1⟩ with ⟨l', h3⟩ | ⟨l', h3⟩
  · exact Or.inl ⟨l', cs, dictGet_of_mem da.1 h3, h2⟩
  · exact Or.inr ⟨l', cs, dictGet_of_mem db.1 h3, h2⟩

/-- C106: the same for segmentation similarity. -/
theorem C106_segmentation_partial (fa : ReadAs kw a fmt) (fb : ReadAs kw' b fmt) (fc : ReadAs kw'' c fmt)
    (da : IsDict a.items) (db : IsDict b.items) (dc : IsDict c.items)
    (ma : CodersMatch a) (mb : CodersMatch b) (mc : CodersMatch c)
    (hab : ∀ m, (∃ l s, Coded a.items l m s) ↔ ∃ l s, Coded b.items l m s)
    (h : Joined a.items b.items c.items) (va : AllValid fmt a.items) (vb : AllValid fmt b.items)
    (hs : fmt ≠ .sets ∨ AllShared rt fmt c.items) {x y : PyNum}
    (hx : actualAgreement o (compareS rt nT .default) kw a = .ok x)
    (hy : actualAgreement o (compareS rt nT .default) kw' b = .ok y) :
    ∃ z, actualAgreement o (compareS rt nT .default) kw'' c = .ok z ∧
      Between x.val y.val z.val := by
  obtain ⟨hc1, hc2⟩ := joined_coders da db dc ma mb mc hab h
  have e1 := readAs_format fa
  have e2 := readAs_format fb
  have e3 := readAs_format fc
  have vc : AllValid fmt c.items := by
    intro l m s hc
    rcases joined_shared h da db l m s hc with ⟨l', h'⟩ | ⟨l', h'⟩
    · exact va _ _ _ h'
    · exact vb _ _ _ h'
  have sc : AllShared rt fmt c.items := hs.elim (fun h => allShared_of h) (fun h => h)
  have both : ∀ (d : AgrData), IsDict d.items → AllValid fmt d.items →
      (∀ l cs, (l, cs) ∈ d.items → ∃ l', (l', cs) ∈ c.items) →
      ∀ j ∈ jobsOf o d, RowBoth rt nT fmt j := by
    intro d dd dv dj
    refine fun _ hj => rowBoth dd dv ?_ hj
    rintro l m n sm sn bm bn ⟨cs, h1, h2⟩ ⟨cs', h1', h3⟩ dm dn
    rw [h1, Option.some.injEq] at h1'
    subst h1'
    obtain ⟨l', h4⟩ := dj l cs (dictGet_mem h1)
    have h5 := dictGet_of_mem dc.1 h4
    exact sc l' m n sm sn bm bn ⟨cs, h5, h2⟩ ⟨cs, h5, h3⟩ dm dn
  have ba := both a da va (fun l cs hm => (joined_mem h cs).2 (Or.inl ⟨l, hm⟩))
  have bb := both b db vb (fun l cs hm => (joined_mem h cs).2 (Or.inr ⟨l, hm⟩))
  have bc := both c dc vc (fun l cs hm => ⟨l, hm⟩)
  refine actual_join hc1 hc2 e1 e2 e3 h
    ⟨rowsNoFlt_segmentation ba, rowsNoFlt_segmentation bb, rowsNoFlt_segmentation bc⟩
    (fun d hd hr => ?_) hx hy
  rcases hd with rfl | rfl
  · exact rowsAre_segmentation ba hr
  · exact rowsAre_segmentation bb hr

/-- C106: the expected agreement of pi over both together is between the two separate ones, too. -/
theorem C106_pi_expected (fa : ReadAs kw a fmt) (fb : ReadAs kw' b fmt) (fc : ReadAs kw'' c fmt)
    (da : IsDict a.items) (db : IsDict b.items) (dc : IsDict c.items)
    (ma : CodersMatch a) (mb : CodersMatch b) (mc : CodersMatch c)
    (hab : ∀ m, (∃ l s, Coded a.items l m s) ↔ ∃ l s, Coded b.items l m s)
    (h : Joined a.items b.items c.items) {x e y f z g : PyNum}
    (hx : fleissPi o (compareB rt nT .default) kw true a = .ok (.parts x e))
    (hy : fleissPi o (compareB rt nT .default) kw' true b = .ok (.parts y f))
    (hz : fleissPi o (compareB rt nT .default) kw'' true c = .ok (.parts z g)) :
    Between e.val f.val g.val := by
  obtain ⟨hc1, hc2⟩ := joined_coders da db dc ma mb mc hab h
  obtain ⟨_, a2, a3, _, _, a6⟩ := (fleissPi_ok (rowsNoFlt_default _ _ _ _) true _).1 hx
  obtain ⟨_, b2, b3, _, _, b6⟩ := (fleissPi_ok (rowsNoFlt_default _ _ _ _) true _).1 hy
  obtain ⟨_, c2, c3, _, _, c6⟩ := (fleissPi_ok (rowsNoFlt_default _ _ _ _) true _).1 hz
  simp only [agrOut, if_true, AgrOut.parts.injEq] at a6 b6 c6
  rw [a6.2, b6.2, c6.2]
  rw [readAs_format fa] at a2 a3 ⊢
  rw [readAs_format fb] at b2 b3 ⊢
  rw [readAs_format fc]
  unfold jobsOf at *
  rw [hc1] at b2 b3 ⊢
  rw [hc2]
  exact joined_piAe _ _ _ h (rowsAre_default a2) (rowsAre_default b2) (denSum_nil a3) (denSum_nil b3)

end

/-! ## Cases -/

/-- One item; the first coder places no boundary, the second one. -/
def exOne : AgrData :=
  .dict [("x".toList, [("a".toList, mass [2]), ("b".toList, mass [1, 1])])]

/-- One item; the first coder places the boundary, the second none. -/
def exTurned : AgrData :=
  .dict [("y".toList, [("a".toList, mass [1, 1]), ("b".toList, mass [2])])]

/-- One item, with more boundaries than `exOne`. -/
def exMore : AgrData :=
  .dict [("y".toList, [("a".toList, mass [2, 1]), ("b".toList, mass [1, 1, 1])])]

/-- The two joined. -/
def exOneOther : AgrData := .dict (exOne.items ++ exTurned.items)

/-- The two joined. -/
def exOneMore : AgrData := .dict (exOne.items ++ exMore.items)

/-- C106: kappa over both together need not be between the two separate ones: here it is 0 in both
and -1/3 over both together. -/
theorem C106_kappa_refuted :
    fleissKappa ascN (compareB .ascending 2 .default) .mass false exOne = .ok (.value (.dec 0)) ∧
    fleissKappa ascN (compareB .ascending 2 .default) .mass false exTurned = .ok (.value (.dec 0)) ∧
    fleissKappa ascN (compareB .ascending 2 .default) .mass false exOneOther =
      .ok (.value (.dec (-1 / 3))) ∧
    Joined exOne.items exTurned.items exOneOther.items := by
  refine ⟨by decide +kernel, by decide +kernel, by decide +kernel, ?_⟩
  exact List.Perm.refl _

/-- C106: nor need pi: here it is -1/3 and -1/7, and above both over both together. -/
theorem C106_pi_refuted :
    fleissPi ascN (compareB .ascending 2 .default) .mass false exOne =
      .ok (.value (.dec (-1 / 3))) ∧
    fleissPi ascN (compareB .ascending 2 .default) .mass false exMore =
      .ok (.value (.dec (-1 / 7))) ∧
    fleissPi ascN (compareB .ascending 2 .default) .mass false exOneMore =
      .ok (.value (.dec (-11 / 117))) ∧
    Joined exOne.items exMore.items exOneMore.items := by
  refine ⟨by decide +kernel, by decide +kernel, by decide +kernel, ?_⟩
  exact List.Perm.refl _

/-- C106: nor need kappa's expected agreement: it is 0 in both and 1/4 over both together. -/
theorem C106_kappa_expected_refuted :
    fleissKappa ascN (compareB .ascending 2 .default) .mass true exOne =
      .ok (.parts (.dec 0) (.dec 0)) ∧
    fleissKappa ascN (compareB .ascending 2 .default) .mass true exTurned =
      .ok (.parts (.dec 0) (.dec 0)) ∧
    fleissKappa ascN (compareB .ascending 2 .default) .mass true exOneOther =
      .ok (.parts (.dec 0) (.dec (1 / 4))) := by
  refine ⟨by decide +kernel, by decide +kernel, by decide +kernel⟩

theorem exOne_dict : IsDict exOne.items := by
  constructor
  · decide +kernel
  · intro it hit
    simp only [exOne, AgrData.items, List.mem_cons, List.not_mem_nil, or_false] at hit
    subst hit; decide +kernel

theorem exMore_dict : IsDict exMore.items := by
  constructor
  · decide +kernel
  · intro it hit
    simp only [exMore, AgrData.items, List.mem_cons, List.not_mem_nil, or_false] at hit
    subst hit; decide +kernel

theorem exOneMore_dict : IsDict exOneMore.items := by
  constructor
  · decide +kernel
  · intro it hit
    simp only [exOneMore, exOne, exMore, AgrData.items, List.mem_append, List.mem_cons,
      List.not_mem_nil, or_false] at hit
    rcases hit with rfl | rfl <;> decide +kernel

/-- Actual agreement 0 and 1/2, together 1/3. -/
example : Between 0 (1 / 2) (1 / 3) := by
  have h1 : actualAgreement ascN (compareB .ascending 2 .default) .mass exOne = .ok (.dec 0) := by
    decide +kernel
  have h2 : actualAgreement ascN (compareB .ascending 2 .default) .mass exMore = .ok (.dec (1 / 2)) := by
    decide +kernel
  have h3 : actualAgreement ascN (compareB .ascending 2 .default) .mass exOneMore =
      .ok (.dec (1 / 3)) := by decide +kernel
  have mx := codersMatch_dict exOne_dict
  have my := codersMatch_dict exMore_dict
  have hc : getCoders exOne = getCoders exMore := by decide +kernel
  obtain ⟨z, hz, h⟩ := C106_actual_partial (.dict _) (.dict _) (.dict _) exOne_dict exMore_dict
    exOneMore_dict mx my (codersMatch_dict exOneMore_dict)
    (fun m => (mx m).symm.trans ((iff_of_eq (congrArg (m ∈ ·) hc)).trans (my m))) (List.Perm.refl _) h1 h2
  have e := Except.ok.inj (h3.symm.trans hz)
  subst e
  exact h

end SegEval.Props
