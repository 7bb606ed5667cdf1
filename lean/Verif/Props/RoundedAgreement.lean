import Verif.Lemmas.RoundedChance
import Verif.Props.Agreement
import Verif.Props.Rounding

/-!
# C73: agreement coefficients with rounded arithmetic
-/

namespace SegEval.Props

open SegEval Spec

/-- Rounding never changes whether actual agreement is computed, or what is raised. -/
theorem C73_actual_errors (ρ : Rounding) (rt : Runtime) (nT : ℤ) (o : ClassOrder Name)
    (kw : BoundaryFormat) (data : AgrData) (e : PyErr) :
    actualAgreement o (compareB rt nT .default) kw data = .error e ↔
      actualAgreementR ρ o (compareBR ρ rt nT (.defaultR ρ)) kw data = .error e := by
  rcases actualAgreementR_pair ρ rt nT o kw data with ⟨e', h1, h2⟩ | ⟨l, p, p', -, -, h1, h2⟩
  · rw [h1, h2]
  · rw [h1, h2]; simp

/-- The sum of all denominators that the comparisons return is at most `n`. -/
def TotalWithin (rt : Runtime) (nT : ℤ) (o : ClassOrder Name) (kw : BoundaryFormat) (data : AgrData)
    (n : ℕ) : Prop :=
  ∀ p, agreementParts (compareB rt nT .default) (agrFormat kw data) (o.order [] (getCoders data))
    data.items = .ok p → (p.denominators.map PyNum.val).sum ≤ n

theorem TotalWithin.le {ρ : Rounding} {rt : Runtime} {nT : ℤ} {o : ClassOrder Name}
    {kw : BoundaryFormat} {data : AgrData} {n : ℕ} (h : TotalWithin rt nT o kw data n)
    {l : List (Comparison × Job)} {p p' : AgrParts} (hp : AgrPair ρ rt nT o kw data l p p') :
    denTotal l ≤ n := by
  have := h p hp.exactOk
  rw [denominators_sum hp.parts] at this
  exact_mod_cast this

/-- C73: with any faithful rounding actual agreement stays between 0 and 1, and complete agreement is
reported as exactly 1. -/
theorem C73_actual_range (ρ : Rounding) (limit : ℕ) (hr : Faithful ρ.dec limit) (rt : Runtime)
    (nT : ℤ) (o : ClassOrder Name) (kw : BoundaryFormat) (data : AgrData) (hd : IsDict data.items)
    (hc : CodersMatch data) (hv : AllValid (agrFormat kw data) data.items)
    (hs : TotalWithin rt nT o kw data limit) (x : PyNum)
    (h : actualAgreementR ρ o (compareBR ρ rt nT (.defaultR ρ)) kw data = .ok x) :
    0 ≤ x.val ∧ x.val ≤ 1 ∧
      (CompleteAgreement (agrFormat kw data) data.items → x = .dec 1) := by
  rcases actualAgreementR_pair ρ rt nT o kw data with ⟨e', -, h2⟩ | ⟨l, p, p', hp, hne, -, h2⟩
  · rw [h2] at h; cases h
  · rw [h2] at h; cases h
    obtain ⟨u1, u2⟩ := aaOf_bounds hr hp.parts.good hne (hs.le hp)
    refine ⟨u1, u2, fun hC => ?_⟩
    rw [aaOf_full hr hp.parts.good hne (hs.le hp) ((hp.complete_iff hd hc hv).2 hC)]

/-- C73: the error of rounded actual agreement grows with the number of comparisons. -/
theorem C73_actual_error (ρ : Rounding) (eps : ℚ) (he : 0 ≤ eps) (ha : Accurate ρ.dec eps)
    (rt : Runtime) (nT : ℤ) (o : ClassOrder Name) (kw : BoundaryFormat) (data : AgrData) (x : PyNum)
    (h : actualAgreement o (compareB rt nT .default) kw data = .ok x) :
    ∃ x', actualAgreementR ρ o (compareBR ρ rt nT (.defaultR ρ)) kw data = .ok x' ∧
      |x'.val - x.val| ≤
        (1 + eps) ^ ((getCoders data).card.choose 2 * data.items.length + 5) - 1 := by
  rcases actualAgreementR_pair ρ rt nT o kw data with ⟨e', h1, -⟩ | ⟨l, p, p', hp, hne, h1, h2⟩
  · rw [h1] at h; cases h
  · rw [h1] at h; cases h
    refine ⟨_, h2, ?_⟩
    have := aaOf_accurate ha he hp.parts.good hne
    rw [← hp.length_jobs, jobsOf, jobsR_length, length_combinations2] at this
    have hl : (o.order [] (getCoders data)).length = (getCoders data).card := by
      rw [← List.toFinset_card_of_nodup (o.nodup [] _)]
      congr 1
      ext c
      rw [List.mem_toFinset, o.mem]
    rw [hl] at this
    exact this

/-- C73: with any faithful rounding the parts of Fleiss' pi stay between 0 and 1, pi is at most 1, and
complete agreement is reported as exactly 1. -/
theorem C73_pi_range (ρ : Rounding) (limit : ℕ) (hr : Faithful ρ.dec limit)
    (hq : Faithful ρ.sq limit) (rt : Runtime) (nT : ℤ) (o : ClassOrder Name) (kw : BoundaryFormat)
    (data : AgrData) (hd : IsDict data.items) (hc : CodersMatch data)
    (hv : AllValid (agrFormat kw data) data.items) (n : ℕ) (hs : TotalWithin rt nT o kw data n)
    (hn : 2 * n ≤ limit) (out : AgrOut)
    (h : fleissPiR ρ o (compareBR ρ rt nT (.defaultR ρ)) kw false data = .ok out) :
    ∃ v aa ae : ℚ, out = .value (.dec v) ∧
      fleissPiR ρ o (compareBR ρ rt nT (.defaultR ρ)) kw true data =
        .ok (.parts (.dec aa) (.dec ae)) ∧
      0 ≤ aa ∧ aa ≤ 1 ∧ 0 ≤ ae ∧ ae ≤ 1 ∧ v ≤ 1 ∧
      (CompleteAgreement (agrFormat kw data) data.items → v = 1) := by
  rcases fleissPiR_pair ρ rt nT o kw data with ⟨e', h2⟩ | ⟨l, p, p', hp, hne, h2⟩
  · rw [(h2 false).2] at h; cases h
  · have hD := hs.le hp
    have hlen := length_le_denTotal hp.parts.good
    have hlpos := List.length_pos_iff.2 hne
    have hf : p.codersBoundaries.flatMap Prod.snd ≠ [] := by
      rw [← List.length_pos_iff, hp.flat_length]; omega
    obtain ⟨u1, u2⟩ := aaOf_bounds hr hp.parts.good hne (by omega)
    obtain ⟨w1, w2⟩ := roundedPiAe_unit hr hq hf hp.flat_rates (by rw [hp.flat_length]; omega)
    rw [(h2 false).2, finishAgreementR_eq] at h
    split at h
    · cases h
    · rename_i hz
      cases h
      have hle := hr.mono (show aaOf ρ.dec nT l - roundedPiAe ρ (p.codersBoundaries.flatMap Prod.snd) ≤
        1 - roundedPiAe ρ (p.codersBoundaries.flatMap Prod.snd) by linarith)
      have hone : ρ.dec 1 = 1 := hr.one (by omega)
      refine ⟨_, _, _, rfl, ?_, u1, u2, w1, w2, ?_, fun hC => ?_⟩
      · rw [(h2 true).2, finishAgreementR_eq, if_neg hz]; rfl
      · have := hr.mono (div_le_one_of_le₀ hle (hr.nonneg (by linarith)))
        rwa [hone] at this
      · rw [aaOf_full hr hp.parts.good hne (by omega) ((hp.complete_iff hd hc hv).2 hC), div_self hz,
          hone]

/-- C73: the same for Fleiss' kappa. -/
theorem C73_kappa_range (ρ : Rounding) (limit : ℕ) (hr : Faithful ρ.dec limit)
    (rt : Runtime) (nT : ℤ) (o : ClassOrder Name) (kw : BoundaryFormat)
    (data : AgrData) (hd : IsDict data.items) (hc : CodersMatch data)
    (hv : AllValid (agrFormat kw data) data.items) (hs : TotalWithin rt nT o kw data limit)
    (out : AgrOut)
    (h : fleissKappaR ρ o (compareBR ρ rt nT (.defaultR ρ)) kw false data = .ok out) :
    ∃ v aa ae : ℚ, out = .value (.dec v) ∧
      fleissKappaR ρ o (compareBR ρ rt nT (.defaultR ρ)) kw true data =
        .ok (.parts (.dec aa) (.dec ae)) ∧
      0 ≤ aa ∧ aa ≤ 1 ∧ 0 ≤ ae ∧ ae ≤ 1 ∧ v ≤ 1 ∧
      (CompleteAgreement (agrFormat kw data) data.items → v = 1) := by
  rcases fleissKappaR_pair ρ rt nT o kw data with ⟨e', h2⟩ | ⟨l, p, p', hp, hne, h2⟩
  · rw [(h2 false).2] at h; cases h
  · have hD := hs.le hp
    have hlen := length_le_denTotal hp.parts.good
    have hlpos := List.length_pos_iff.2 hne
    obtain ⟨k2, hk⟩ := hp.combos_le hne
    obtain ⟨u1, u2⟩ := aaOf_bounds hr hp.parts.good hne (by omega)
    obtain ⟨w1, w2⟩ := roundedKappaAe_unit hr (by simpa using k2) (hp.tally_rates hne) (by omega)
    rw [(h2 false).2, finishAgreementR_eq] at h
    split at h
    · cases h
    · rename_i hz
      cases h
      have hle := hr.mono (show aaOf ρ.dec nT l -
          roundedKappaAe ρ (p.codersBoundaries.map fun e => tally e.2) ≤
        1 - roundedKappaAe ρ (p.codersBoundaries.map fun e => tally e.2) by linarith)
      have hone : ρ.dec 1 = 1 := hr.one (by omega)
      refine ⟨_, _, _, rfl, ?_, u1, u2, w1, w2, ?_, fun hC => ?_⟩
      · rw [(h2 true).2, finishAgreementR_eq, if_neg hz]; rfl
      · have := hr.mono (div_le_one_of_le₀ hle (hr.nonneg (by linarith)))
        rwa [hone] at this
      · rw [aaOf_full hr hp.parts.good hne (by omega) ((hp.complete_iff hd hc hv).2 hC), div_self hz,
          hone]

/-- Well-formed data of moderate size: types and the width of transpositions up to a million, and up
to a million boundary pairs and potential boundaries over all comparisons. -/
structure Moderate (rt : Runtime) (nT : ℤ) (o : ClassOrder Name) (kw : BoundaryFormat)
    (data : AgrData) : Prop where
  dict : IsDict data.items
  coders : CodersMatch data
  valid : AllValid (agrFormat kw data) data.items
  width : nT ≤ 10 ^ 6
  types : TypesWithin (agrFormat kw data) data.items (10 ^ 6)
  total : TotalWithin rt nT o kw data (10 ^ 6)
  potential : ∀ p, agreementParts (compareB rt nT .default) (agrFormat kw data)
    (o.order [] (getCoders data)) data.items = .ok p → p.pbs.sum ≤ 10 ^ 6

/-- What a rounded coefficient `f'` has to do with the exact one `f`, where `C` is complete
agreement. -/
structure CloseCoefficient (C : Prop) (f f' : Bool → Py AgrOut) : Prop where
  errors : ∀ rp e, f rp = .error e ↔ f' rp = .error e
  values : ∀ rp out, f' rp = .ok out → ∃ v v' aa aa' ae ae' : ℚ,
    f false = .ok (.value (.dec v)) ∧ f' false = .ok (.value (.dec v')) ∧
    f true = .ok (.parts (.dec aa) (.dec ae)) ∧ f' true = .ok (.parts (.dec aa') (.dec ae')) ∧
    |aa' - aa| ≤ 1 / 10 ^ 20 ∧ |ae' - ae| ≤ 1 / 10 ^ 20 ∧ 0 ≤ ae ∧ ae < 1 ∧
    |v' - v| ≤ 2 / 10 ^ 19 / (1 - ae) ^ 2 ∧ (v' = 1 ↔ C) ∧ (aa' = 1 ↔ C)

theorem closeCoefficient_of {C : Prop} {f f' : Bool → Py AgrOut} {aa aa' ae ae' : ℚ}
    (h : ChanceFacts C aa aa' ae ae')
    (h1 : ∀ rp, f rp = finishAgreementR .exact rp (.dec aa) (.dec ae) ∧
      f' rp = finishAgreementR .cpython rp (.dec aa') (.dec ae')) : CloseCoefficient C f f' := by
  refine ⟨fun rp e => ?_, fun rp out ho => ?_⟩
  · rw [(h1 rp).1, (h1 rp).2]; exact h.same_errors rp e
  · rw [(h1 rp).2, h.ok_iff] at ho
    have hae := ho.1
    have hlt : ae < 1 := lt_of_le_of_lt hae (by norm_num)
    have hne : ¬Rounding.exact.dec (1 - ae) = 0 := by
      change ¬(1 - ae = 0)
      rw [sub_eq_zero]; exact hlt.ne'
    refine ⟨(aa - ae) / (1 - ae), _, aa, aa', ae, ae', ?_, ?_, ?_, ?_, h.aa_close, h.ae_close, h.ae_unit.1,
      hlt, ?_, h.value_one_iff hae, h.aa_iff.2⟩
    · rw [(h1 false).1, finishAgreementR_eq, if_neg hne]; rfl
    · rw [(h1 false).2, h.ok_iff]; exact ⟨hae, rfl⟩
    · rw [(h1 true).1, finishAgreementR_eq, if_neg hne]; rfl
    · rw [(h1 true).2, h.ok_iff]; exact ⟨hae, rfl⟩
    · rw [le_div_iff₀ (by have : 0 < 1 - ae := by linarith
                          positivity)]
      exact h.value_close hae

/-- C73: in the default decimal context, for data of moderate size, Fleiss' pi is close to the exact
one, raises what the exact one raises, and is 1 exactly for complete agreement. -/
theorem C73_pi_default_context (rt : Runtime) (nT : ℤ) (o : ClassOrder Name) (kw : BoundaryFormat)
    (data : AgrData) (hm : Moderate rt nT o kw data) :
    CloseCoefficient (CompleteAgreement (agrFormat kw data) data.items)
      (fun rp => fleissPi o (compareB rt nT .default) kw rp data)
      (fun rp => fleissPiR .cpython o (compareBR .cpython rt nT (.defaultR .cpython)) kw rp data) := by
  rcases fleissPiR_pair .cpython rt nT o kw data with ⟨e', h2⟩ | ⟨l, p, p', hp, hne, h2⟩
  · refine ⟨fun rp e => ?_, fun rp out ho => ?_⟩
    · simp only [(h2 rp).1, (h2 rp).2]
    · rw [(h2 rp).2] at ho; cases ho
  · exact closeCoefficient_of (piFacts hp hne hm.dict hm.coders hm.valid hm.width hm.types
      (hm.total.le hp) (hm.potential p hp.exactOk)) h2

/-- C73: the same for Fleiss' kappa. -/
theorem C73_kappa_default_context (rt : Runtime) (nT : ℤ) (o : ClassOrder Name)
    (kw : BoundaryFormat) (data : AgrData) (hm : Moderate rt nT o kw data) :
    CloseCoefficient (CompleteAgreement (agrFormat kw data) data.items)
      (fun rp => fleissKappa o (compareB rt nT .default) kw rp data)
      (fun rp => fleissKappaR .cpython o (compareBR .cpython rt nT (.defaultR .cpython)) kw rp
        data) := by
  rcases fleissKappaR_pair .cpython rt nT o kw data with ⟨e', h2⟩ | ⟨l, p, p', hp, hne, h2⟩
  · refine ⟨fun rp e => ?_, fun rp out ho => ?_⟩
    · simp only [(h2 rp).1, (h2 rp).2]
    · rw [(h2 rp).2] at ho; cases ho
  · exact closeCoefficient_of (kappaFacts hp hne hm.dict hm.coders hm.valid hm.width hm.types
      (hm.total.le hp) (hm.potential p hp.exactOk)) h2

/-- C73: in the default decimal context the bias raises what the exact one raises and is close to
it. -/
theorem C73_bias_default_context (rt : Runtime) (nT : ℤ) (o : ClassOrder Name)
    (kw : BoundaryFormat) (data : AgrData) (hm : Moderate rt nT o kw data) :
    (∀ rp e, artsteinPoesioBias o (compareB rt nT .default) kw rp data = .error e ↔
      artsteinPoesioBiasR .cpython o (compareBR .cpython rt nT (.defaultR .cpython)) kw rp data =
        .error e) ∧
    ∀ out, artsteinPoesioBiasR .cpython o (compareBR .cpython rt nT (.defaultR .cpython)) kw false
        data = .ok out →
      ∃ b b' : ℚ, out = .value (.dec b') ∧
        artsteinPoesioBias o (compareB rt nT .default) kw false data = .ok (.value (.dec b)) ∧
        |b' - b| ≤ 3 / 10 ^ 20 := by
  have hpi := C73_pi_default_context rt nT o kw data hm
  have hka := C73_kappa_default_context rt nT o kw data hm
  unfold artsteinPoesioBias artsteinPoesioBiasR
  rcases hp : fleissPiR .cpython o (compareBR .cpython rt nT (.defaultR .cpython)) kw true data
    with ep | op
  · rw [(hpi.errors true ep).2 hp]
    simp
  rcases hk : fleissKappaR .cpython o (compareBR .cpython rt nT (.defaultR .cpython)) kw true data
    with ek | ok
  · obtain ⟨v, v', aa, aa', ae, ae', -, -, h3, h4, -⟩ := hpi.values true op hp
    simp only [hp, Except.ok.injEq] at h4
    subst h4
    simp only [h3, (hka.errors true ek).2 hk]
    simp
  · obtain ⟨v, v', aa, aa', ae, ae', -, -, h3, h4, -, c1, n1, l1, -⟩ := hpi.values true op hp
    obtain ⟨w, w', ba, ba', be, be', -, -, k3, k4, -, c2, n2, l2, -⟩ := hka.values true ok hk
    simp only [hp, Except.ok.injEq] at h4
    simp only [hk, Except.ok.injEq] at k4
    subst h4 k4
    simp only [h3, k3, PyNum.sub, PyNum.subR]
    refine ⟨by intro rp e; cases rp <;> simp, fun out ho => ?_⟩
    cases ho
    refine ⟨ae - be, _, rfl, rfl, ?_⟩
    have ha := cpython_accurate (ae' - be')
    rw [abs_le] at c1 c2
    have hb : |ae' - be'| ≤ 2 := by
      rw [abs_le]; constructor <;> norm_num at c1 c2 ⊢ <;> linarith
    have hR : |Rounding.cpython.dec (ae' - be') - (ae' - be')| ≤ 1 / 10 ^ 27 := by
      refine le_trans ha ?_
      calc 1 / (2 * 10 ^ 27) * |ae' - be'| ≤ 1 / (2 * 10 ^ 27) * 2 := by gcongr
        _ = 1 / 10 ^ 27 := by norm_num
    rw [abs_le] at hR ⊢
    constructor <;> norm_num at c1 c2 hR ⊢ <;> linarith

/-! ### Examples -/

/-- With masses every type is 1. -/
theorem typesWithin_of {fmt : BoundaryFormat} (hf : fmt ≠ .sets) (items : Items) :
    TypesWithin fmt items (10 ^ 6) := by
  intro label m n sm sn bm bn _ _ _ dm dn t t' ht ht'
  have h1 : ∀ t, UsesType bm bn t → t = 1 := by
    rintro t ⟨p, hp | hp⟩
    · simpa using denotes_types dm hf p hp
    · simpa using denotes_types dn hf p hp
  rw [h1 t ht, h1 t' ht']
  norm_num

theorem exAgr_parts : Except.map (fun p => (p.denominators, p.pbs))
    (agreementParts (compareB .ascending 2 .default) (agrFormat .mass exAgr)
      (ascN.order [] (getCoders exAgr)) exAgr.items) =
    .ok ([.int 1, .int 2, .int 1, .int 2, .int 1, .int 1], [4, 6, 4, 6, 4, 6]) := by
  decide +kernel

/-- The data of C46 is of moderate size. -/
theorem exAgr_moderate : Moderate .ascending 2 ascN .mass exAgr where
  dict := exAgr_dict
  coders := codersMatch_dict exAgr_dict
  valid := exAgr_valid
  width := by norm_num
  types := typesWithin_of (by decide) _
  total p hp := by
    have h := exAgr_parts
    rw [show agreementParts _ _ _ _ = Except.ok p from hp] at h
    simp only [Except.map, Except.ok.injEq, Prod.mk.injEq] at h
    rw [h.1]
    norm_num [PyNum.val]
  potential p hp := by
    have h := exAgr_parts
    rw [show agreementParts _ _ _ _ = Except.ok p from hp] at h
    simp only [Except.map, Except.ok.injEq, Prod.mk.injEq] at h
    rw [h.2]
    norm_num

example : Moderate .ascending 2 ascN .mass exAgr ∧
    actualAgreementR .cpython ascN (compareBR .cpython .ascending 2 (.defaultR .cpython)) .mass exAgr =
      .ok (.dec (5 / 8)) ∧
    fleissPi ascN (compareB .ascending 2 .default) .mass true exAgr =
      .ok (.parts (.dec (5 / 8)) (.dec (289 / 5184))) ∧
    fleissPiR .cpython ascN (compareBR .cpython .ascending 2 (.defaultR .cpython)) .mass true exAgr =
      .ok (.parts (.dec (5 / 8)) (.dec (5574845679012345679012345683 / 10 ^ 29))) ∧
    fleissPiR .cpython ascN (compareBR .cpython .ascending 2 (.defaultR .cpython)) .mass false exAgr =
      .ok (.value (.dec (6028600612870275791624106231 / 10 ^ 28))) ∧
    fleissKappaR .cpython ascN (compareBR .cpython .ascending 2 (.defaultR .cpython)) .mass true
        exAgr =
      .ok (.parts (.dec (5 / 8)) (.dec (5333333333333333333333333333 / 10 ^ 29))) ∧
    fleissKappaR .cpython ascN (compareBR .cpython .ascending 2 (.defaultR .cpython)) .mass false
        exAgr = .ok (.value (.dec (6038732394366197183098591549 / 10 ^ 28))) :=
  ⟨exAgr_moderate, by decide +kernel, by decide +kernel, by decide +kernel, by decide +kernel,
    by decide +kernel, by decide +kernel⟩

/-! ### What rounding breaks -/

/-- C73 refuted for the bias: with exact arithmetic it is never negative, with the default context it
can be. -/
theorem C73_bias_refuted :
    artsteinPoesioBias ascN (compareB .ascending 2 .default) .mass false (exSame [1, 1, 2]) =
      .ok (.value (.dec 0)) ∧
    artsteinPoesioBiasR .cpython ascN (compareBR .cpython .ascending 2 (.defaultR .cpython)) .mass
        false (exSame [1, 1, 2]) = .ok (.value (.dec (-3 / 10 ^ 28))) :=
  ⟨by decide +kernel, by decide +kernel⟩

/-- One item, three coders, two of whom agree. -/
def exSign : AgrData := .dict [("x".toList, [("a".toList, mass [2, 2]),
  ("b".toList, mass [1, 1, 1, 1]), ("c".toList, mass [1, 1, 1, 1])])]

/-- C73 refuted for the order of coders: the same data gives a kappa of 0 with exact arithmetic, and
with the default context a negative or a positive one, depending on the order in which the set of
coders is iterated. -/
theorem C73_order_refuted :
    fleissKappa ascN (compareB .ascending 2 .default) .mass false exSign =
      .ok (.value (.dec 0)) ∧
    fleissKappaR .cpython ascN (compareBR .cpython .ascending 2 (.defaultR .cpython)) .mass false
        exSign = .ok (.value (.dec (-2250000000000000000000000001 / 10 ^ 55))) ∧
    fleissKappaR .cpython descN (compareBR .cpython .ascending 2 (.defaultR .cpython)) .mass false
        exSign = .ok (.value (.dec (1687499999999999999999999999 / (25 * 10 ^ 53)))) :=
  ⟨by decide +kernel, by decide +kernel, by decide +kernel⟩

end SegEval.Props
