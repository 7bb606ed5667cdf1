import Verif.Props.Formula
import Verif.Props.Locality
import Verif.Lemmas.MLBed
import Verif.Spec.Weights

/-!
# C78: similarity under weight functions of the user
-/

namespace SegEval.Props

open SegEval Spec

variable {rt : Runtime} {kw : SimKw} {a b : Seg} {sa sb : BString} {mx mn : ℤ} {e : Edits}
  {types : Finset ℤ}

theorem sub_val {x y z : PyNum} (h : x.sub y = .ok z) : z.val = x.val - y.val := by
  cases x <;> cases y <;> cases h <;> simp [PyNum.val]

/-- Taking the weighted count apart. -/
theorem countEdits_charges {w : Weights} {nT : ℤ} (hx : Extremes sa sb mx mn) {c : PyNum}
    (h : countEdits w nT (identifyTypes sa sb) e = .ok c) :
    ∃ x y z, Charges w nT mx mn e x y z ∧ c.val = total x y z := by
  have hne : identifyTypes sa sb ≠ ∅ :=
    Finset.nonempty_iff_ne_empty.1 ⟨mx, mem_identifyTypes.2 hx.usedMax⟩
  obtain ⟨mx', hmx, _⟩ := pyMax_ok hne
  obtain ⟨mn', hmn, _⟩ := pyMin_ok hne
  have e1 := extremes_pyMax hx hmx
  have e2 := extremes_pyMin hx hmn
  subst e1 e2
  unfold countEdits at h
  rw [hmx, hmn] at h
  cases h1 : w.a e.additions with
  | error er => rw [h1] at h; cases h
  | ok x =>
    cases h2 : w.s e.substitutions mx' mn' with
    | error er => simp only [h1, h2] at h; cases h
    | ok y =>
      cases h3 : w.t e.transpositions nT with
      | error er => simp only [h1, h2, h3] at h; cases h
      | ok z =>
        simp only [h1, h2, h3] at h
        cases h4 : x.add y with
        | error er => rw [h4] at h; cases h
        | ok u =>
          rw [h4] at h
          exact ⟨x, y, z, ⟨h1, h2, h3⟩, by rw [add_val h, add_val h4, total]⟩

/-- The facts about a successful statistics call with arbitrary weights. -/
theorem weighted_facts (ha : Denotes kw.boundaryFormat a sa) (hb : Denotes kw.boundaryFormat b sb)
    (hx : Extremes sa sb mx mn) (he : boundaryEditDistance rt sa sb kw.nT = .ok e)
    (ht : ∀ t, t ∈ types ↔ UsesType sa sb t) {st : Statistics}
    (h : boundaryStatistics rt kw.boundaryFormat kw.nT kw.weight a b = .ok st) :
    sa.length = sb.length ∧ st.edits = e ∧ e = editsOf rt sa sb kw.nT ∧
      st.matches'.length = matchCount sa sb ∧ st.boundaryTypes = types ∧
      st.pbs = sa.length * types.card ∧
      ∃ x y z, Charges kw.weight kw.nT mx mn e x y z ∧ st.countEdits.val = total x y z := by
  rw [boundaryStatistics_denotes ha hb] at h
  obtain ⟨hl, hbed, he', hce, _, _, hm, hp, hty⟩ := statistics_ok h
  rw [hbed, Except.ok.injEq] at he
  have htypes : types = identifyTypes sa sb := by
    ext t; rw [ht, mem_identifyTypes]
  rw [he] at hce
  exact ⟨hl, he'.trans he, he.symm, by rw [hm, matches_length rt hl], hty.trans htypes.symm,
    by rw [hp, htypes, hl], countEdits_charges hx hce⟩

/-- C78: boundary similarity is one less the charges for the edit script over the number of its edits
and matches, for any weight functions. -/
theorem C78_boundary (hr : kw.returnParts = false) (ho : kw.oneMinus = false)
    (ha : Denotes kw.boundaryFormat a sa) (hb : Denotes kw.boundaryFormat b sb)
    (hx : Extremes sa sb mx mn) (he : boundaryEditDistance rt sa sb kw.nT = .ok e) (v : ℚ)
    (h : Returns (boundarySimilarity rt kw a b) v) :
    ∃ x y z, Charges kw.weight kw.nT mx mn e x y z ∧
      v = 1 - total x y z / (editCount e + matchCount sa sb) := by
  obtain ⟨v, hv, rfl⟩ := h
  obtain ⟨st, hst⟩ := boundarySim_stats hv
  have hD := stats_den_pos hst
  obtain ⟨hl, hed, _, hm, _, _, x, y, z, hch, hc⟩ :=
    weighted_facts ha hb hx he (types := identifyTypes sa sb) (fun t => mem_identifyTypes) hst
  refine ⟨x, y, z, hch, ?_⟩
  rw [hed, hm] at hD
  unfold boundarySimilarity at hv
  simp only [hst, hr, ho, hed, hm, Bool.false_eq_true, if_false] at hv
  generalize hDe : (e.additions.length : ℤ) + (e.substitutions.length : ℤ) +
      (e.transpositions.length : ℤ) + (matchCount sa sb : ℤ) = D at *
  have hDq : (D : ℚ) = editCount e + matchCount sa sb := by
    rw [← hDe, editCount]; push_cast; rfl
  have hD0 : (D : ℚ) ≠ 0 := by exact_mod_cast hD.ne'
  cases hs : (PyNum.int D).sub st.countEdits with
  | error er => rw [hs] at hv; cases hv
  | ok n =>
    obtain ⟨u, hu, hval⟩ := ratioOrOne_val n hD
    simp only [hs, hu, applyOneMinus, Bool.false_eq_true, if_false, Except.ok.injEq,
      MetricOut.num.injEq] at hv
    rw [← hv, hval, sub_val hs, hc]
    simp only [PyNum.val]
    rw [sub_div, div_self hD0, hDq]

/-- C78: segmentation similarity is one less the charges for the edit script over the potential
boundaries, positions times types, times the types again. -/
theorem C78_segmentation (hr : kw.returnParts = false) (ho : kw.oneMinus = false)
    (ha : Denotes kw.boundaryFormat a sa) (hb : Denotes kw.boundaryFormat b sb)
    (hx : Extremes sa sb mx mn) (ht : ∀ t, t ∈ types ↔ UsesType sa sb t)
    (he : boundaryEditDistance rt sa sb kw.nT = .ok e) (v : ℚ)
    (h : Returns (segmentationSimilarity rt kw a b) v) :
    ∃ x y z, Charges kw.weight kw.nT mx mn e x y z ∧
      v = 1 - total x y z / (sa.length * types.card * types.card) := by
  obtain ⟨v, hv, rfl⟩ := h
  obtain ⟨st, hst⟩ := segmentationSim_stats hv
  have hD := stats_pbs_pos hst
  obtain ⟨hl, hed, _, hm, hty, hp, x, y, z, hch, hc⟩ := weighted_facts ha hb hx he ht hst
  refine ⟨x, y, z, hch, ?_⟩
  unfold segmentationSimilarity at hv
  simp only [hst, hr, ho, Bool.false_eq_true, if_false] at hv
  rw [hty, hp] at hD hv
  generalize hDe : (sa.length : ℤ) * (types.card : ℤ) * (types.card : ℤ) = D at *
  have hDq : (D : ℚ) = sa.length * types.card * types.card := by
    rw [← hDe]; push_cast; rfl
  have hD0 : (D : ℚ) ≠ 0 := by exact_mod_cast hD.ne'
  cases hs : (PyNum.int D).sub st.countEdits with
  | error er => rw [hs] at hv; cases hv
  | ok n =>
    obtain ⟨u, hu, hval⟩ := ratioOrOne_val n hD
    simp only [hs, hu, applyOneMinus, Bool.false_eq_true, if_false, Except.ok.injEq,
      MetricOut.num.injEq] at hv
    rw [← hv, hval, sub_val hs, hc]
    simp only [PyNum.val]
    rw [sub_div, div_self hD0, hDq]

theorem Charges.unique {w : Weights} {nT : ℤ} {x y z x' y' z' : PyNum}
    (h : Charges w nT mx mn e x y z) (h' : Charges w nT mx mn e x' y' z') :
    x = x' ∧ y = y' ∧ z = z' := by
  have h1 := h.additions.symm.trans h'.additions
  have h2 := h.substitutions.symm.trans h'.substitutions
  have h3 := h.transpositions.symm.trans h'.transpositions
  simp only [Except.ok.injEq] at h1 h2 h3
  exact ⟨h1, h2, h3⟩

/-- C78: both metrics return unless the weight functions mix floats and Decimals. -/
theorem C78_defined (hr : kw.returnParts = false) (ho : kw.oneMinus = false)
    (ha : Denotes kw.boundaryFormat a sa) (hb : Denotes kw.boundaryFormat b sb)
    (hl : sa.length = sb.length) (hx : Extremes sa sb mx mn)
    (he : boundaryEditDistance rt sa sb kw.nT = .ok e) {x y z : PyNum}
    (hc : Charges kw.weight kw.nT mx mn e x y z) (hu : Unmixed [x, y, z]) :
    (∃ v, Returns (boundarySimilarity rt kw a b) v) ∧
      ∃ v, Returns (segmentationSimilarity rt kw a b) v := by
  have hne : identifyTypes sa sb ≠ ∅ :=
    Finset.nonempty_iff_ne_empty.1 ⟨mx, mem_identifyTypes.2 hx.usedMax⟩
  obtain ⟨mx', hmx, _⟩ := pyMax_ok hne
  obtain ⟨mn', hmn, _⟩ := pyMin_ok hne
  have e1 := extremes_pyMax hx hmx
  have e2 := extremes_pyMin hx hmn
  subst e1 e2
  obtain ⟨c, hce⟩ : ∃ c, countEdits kw.weight kw.nT (identifyTypes sa sb) e = .ok c := by
    unfold countEdits
    rw [hc.additions, hmx, hmn]
    simp only [hc.substitutions, hc.transpositions]
    cases x <;> cases y <;> cases z <;> first | exact ⟨_, rfl⟩ | simp [Unmixed] at hu
  have hst : ∃ st, boundaryStatistics rt kw.boundaryFormat kw.nT kw.weight a b = .ok st := by
    rw [boundaryStatistics_denotes ha hb, statisticsOfStrings, if_neg (by simp [hl])]
    simp only [he, hce]
    exact ⟨_, rfl⟩
  obtain ⟨st, hst⟩ := hst
  have sub : ∀ D : ℤ, ∃ n, (PyNum.int D).sub st.countEdits = .ok n := by
    intro D
    cases st.countEdits <;> exact ⟨_, rfl⟩
  constructor
  · obtain ⟨n, hn⟩ := sub ((st.edits.additions.length : ℤ) + (st.edits.substitutions.length : ℤ) +
      (st.edits.transpositions.length : ℤ) + (st.matches'.length : ℤ))
    obtain ⟨u, h1, _⟩ := ratioOrOne_val n (stats_den_pos hst)
    refine ⟨u.val, u, ?_, rfl⟩
    unfold boundarySimilarity
    simp only [hst, hn, hr, h1, ho, applyOneMinus, Bool.false_eq_true, if_false]
  · obtain ⟨n, hn⟩ := sub (st.pbs * (st.boundaryTypes.card : ℤ))
    obtain ⟨u, h1, _⟩ := ratioOrOne_val n (stats_pbs_pos hst)
    refine ⟨u.val, u, ?_, rfl⟩
    unfold segmentationSimilarity
    simp only [hst, hn, hr, h1, ho, applyOneMinus, Bool.false_eq_true, if_false]

/-- C78: with charges between 0 and 1 for each edit, boundary similarity is between 0 and 1. -/
theorem C78_range (hr : kw.returnParts = false) (ho : kw.oneMinus = false)
    (ha : Denotes kw.boundaryFormat a sa) (hb : Denotes kw.boundaryFormat b sb)
    (hx : Extremes sa sb mx mn) (he : boundaryEditDistance rt sa sb kw.nT = .ok e) {x y z : PyNum}
    (hc : Charges kw.weight kw.nT mx mn e x y z) (hf : Fair e x y z) (v : ℚ)
    (h : Returns (boundarySimilarity rt kw a b) v) :
    matchCount sa sb / (editCount e + matchCount sa sb : ℚ) ≤ v ∧ 0 ≤ v ∧ v ≤ 1 := by
  obtain ⟨x', y', z', hc', rfl⟩ := C78_boundary hr ho ha hb hx he v h
  obtain ⟨rfl, rfl, rfl⟩ := Charges.unique hc hc'
  have h1 := hf.additions
  have h2 := hf.substitutions
  have h3 := hf.transpositions
  have hD : 0 < (editCount e + matchCount sa sb : ℚ) := by
    obtain ⟨w, hv, _⟩ := h
    obtain ⟨st, hst⟩ := boundarySim_stats hv
    obtain ⟨hl, _, hee, _⟩ := weighted_facts ha hb hx he (types := identifyTypes sa sb)
      (fun t => mem_identifyTypes) hst
    rw [hee]
    exact_mod_cast edits_matches_pos hl kw.nT
      (Finset.nonempty_iff_ne_empty.1 ⟨mx, mem_identifyTypes.2 hx.usedMax⟩)
  have hle : total x y z ≤ editCount e := by
    rw [total, editCount]; push_cast; linarith
  have h0 : 0 ≤ total x y z := by rw [total]; linarith
  have key : matchCount sa sb / (editCount e + matchCount sa sb : ℚ) ≤
      1 - total x y z / (editCount e + matchCount sa sb) := by
    rw [le_sub_iff_add_le, ← add_div, div_le_one hD]; linarith
  refine ⟨key, le_trans (by positivity) key, ?_⟩
  have := div_nonneg h0 hD.le
  linarith

/-- C78: charging every kind of edit that occurs, similarity 1 is complete agreement. -/
theorem C78_one_iff (hr : kw.returnParts = false) (ho : kw.oneMinus = false)
    (ha : Denotes kw.boundaryFormat a sa) (hb : Denotes kw.boundaryFormat b sb)
    (hx : Extremes sa sb mx mn) (he : boundaryEditDistance rt sa sb kw.nT = .ok e) {x y z : PyNum}
    (hc : Charges kw.weight kw.nT mx mn e x y z) (hf : Fair e x y z) (hp : Charged e x y z) (v : ℚ)
    (h : Returns (boundarySimilarity rt kw a b) v) : v = 1 ↔ sa = sb := by
  obtain ⟨x', y', z', hc', rfl⟩ := C78_boundary hr ho ha hb hx he v h
  obtain ⟨rfl, rfl, rfl⟩ := Charges.unique hc hc'
  obtain ⟨w, hv, _⟩ := h
  obtain ⟨st, hst⟩ := boundarySim_stats hv
  obtain ⟨hl, _, hee, _⟩ := weighted_facts ha hb hx he (types := identifyTypes sa sb)
    (fun t => mem_identifyTypes) hst
  have hD : 0 < (editCount e + matchCount sa sb : ℚ) := by
    rw [hee]
    exact_mod_cast edits_matches_pos hl kw.nT
      (Finset.nonempty_iff_ne_empty.1 ⟨mx, mem_identifyTypes.2 hx.usedMax⟩)
  rw [← edits_zero_iff (rt := rt) hl kw.nT, ← hee, sub_eq_self, div_eq_zero_iff,
    or_iff_left hD.ne', total]
  have h1 := hf.additions
  have h2 := hf.substitutions
  have h3 := hf.transpositions
  constructor
  · intro h0
    have x0 : ¬ 0 < x.val := by linarith
    have y0 : ¬ 0 < y.val := by linarith
    have z0 : ¬ 0 < z.val := by linarith
    have a0 := not_not.1 (fun hn => x0 (hp.additions hn))
    have s0 := not_not.1 (fun hn => y0 (hp.substitutions hn))
    have t0 := not_not.1 (fun hn => z0 (hp.transpositions hn))
    simp [editCount, a0, s0, t0]
  · intro h0
    have a0 : e.additions.length = 0 := by rw [editCount] at h0; omega
    have s0 : e.substitutions.length = 0 := by rw [editCount] at h0; omega
    have t0 : e.transpositions.length = 0 := by rw [editCount] at h0; omega
    rw [a0, Nat.cast_zero] at h1
    rw [s0, Nat.cast_zero] at h2
    rw [t0, Nat.cast_zero] at h3
    linarith [h1.1, h1.2, h2.1, h2.2, h3.1, h3.2]

/-- C78: weight functions that charge more for the script give less of either similarity. -/
theorem C78_dearer {w w' : Weights} (hr : kw.returnParts = false) (ho : kw.oneMinus = false)
    (ha : Denotes kw.boundaryFormat a sa) (hb : Denotes kw.boundaryFormat b sb)
    (hx : Extremes sa sb mx mn) (he : boundaryEditDistance rt sa sb kw.nT = .ok e)
    {x y z x' y' z' : PyNum} (hc : Charges w kw.nT mx mn e x y z)
    (hc' : Charges w' kw.nT mx mn e x' y' z') (v v' : ℚ) :
    (Returns (boundarySimilarity rt { kw with weight := w } a b) v →
      Returns (boundarySimilarity rt { kw with weight := w' } a b) v' →
        (v' ≤ v ↔ total x y z ≤ total x' y' z')) ∧
    (Returns (segmentationSimilarity rt { kw with weight := w } a b) v →
      Returns (segmentationSimilarity rt { kw with weight := w' } a b) v' →
        (v' ≤ v ↔ total x y z ≤ total x' y' z')) := by
  constructor
  · intro h h'
    obtain ⟨_, _, _, k, e1⟩ := C78_boundary (kw := { kw with weight := w }) hr ho ha hb hx he v h
    obtain ⟨rfl, rfl, rfl⟩ := Charges.unique hc k
    obtain ⟨_, _, _, k', e2⟩ := C78_boundary (kw := { kw with weight := w' }) hr ho ha hb hx he v' h'
    obtain ⟨rfl, rfl, rfl⟩ := Charges.unique hc' k'
    have hD : 0 < (editCount e + matchCount sa sb : ℚ) := by
      obtain ⟨u, hv, _⟩ := h
      obtain ⟨st, hst⟩ := boundarySim_stats hv
      obtain ⟨hl, _, hee, _⟩ := weighted_facts (kw := { kw with weight := w }) ha hb hx he
        (types := identifyTypes sa sb) (fun t => mem_identifyTypes) hst
      rw [hee]
      exact_mod_cast edits_matches_pos hl kw.nT
        (Finset.nonempty_iff_ne_empty.1 ⟨mx, mem_identifyTypes.2 hx.usedMax⟩)
    rw [e1, e2, sub_le_sub_iff_left, div_le_div_iff_of_pos_right hD]
  · intro h h'
    obtain ⟨_, _, _, k, e1⟩ := C78_segmentation (kw := { kw with weight := w })
      (types := identifyTypes sa sb) hr ho ha hb hx (fun t => mem_identifyTypes) he v h
    obtain ⟨rfl, rfl, rfl⟩ := Charges.unique hc k
    obtain ⟨_, _, _, k', e2⟩ := C78_segmentation (kw := { kw with weight := w' })
      (types := identifyTypes sa sb) hr ho ha hb hx (fun t => mem_identifyTypes) he v' h'
    obtain ⟨rfl, rfl, rfl⟩ := Charges.unique hc' k'
    have hD : 0 < (sa.length * (identifyTypes sa sb).card * (identifyTypes sa sb).card : ℚ) := by
      obtain ⟨u, hv, _⟩ := h
      obtain ⟨st, hst⟩ := segmentationSim_stats hv
      have hD := stats_pbs_pos hst
      obtain ⟨_, _, _, _, hty, hp, _⟩ := weighted_facts (kw := { kw with weight := w }) ha hb hx he
        (types := identifyTypes sa sb) (fun t => mem_identifyTypes) hst
      rw [hty, hp] at hD
      exact_mod_cast hD
    rw [e1, e2, sub_le_sub_iff_left, div_le_div_iff_of_pos_right hD]

/-- C78: with charges between 0 and 1 for each edit, segmentation similarity is between 0 and 1. -/
theorem C78_segmentation_range (hr : kw.returnParts = false) (ho : kw.oneMinus = false)
    (ha : Denotes kw.boundaryFormat a sa) (hb : Denotes kw.boundaryFormat b sb)
    (hs : SharedTypes rt sa sb)
    (hx : Extremes sa sb mx mn) (he : boundaryEditDistance rt sa sb kw.nT = .ok e) {x y z : PyNum}
    (hc : Charges kw.weight kw.nT mx mn e x y z) (hf : Fair e x y z) (v : ℚ)
    (h : Returns (segmentationSimilarity rt kw a b) v) : 0 ≤ v ∧ v ≤ 1 := by
  obtain ⟨x', y', z', hc', rfl⟩ := C78_segmentation (types := identifyTypes sa sb) hr ho ha hb hx
    (fun t => mem_identifyTypes) he v h
  obtain ⟨rfl, rfl, rfl⟩ := Charges.unique hc hc'
  have h1 := hf.additions
  have h2 := hf.substitutions
  have h3 := hf.transpositions
  obtain ⟨w, hv, _⟩ := h
  obtain ⟨st, hst⟩ := segmentationSim_stats hv
  have hD := stats_pbs_pos hst
  obtain ⟨hl, _, hee, _, hty, hp, _⟩ := weighted_facts ha hb hx he (types := identifyTypes sa sb)
    (fun t => mem_identifyTypes) hst
  rw [hty, hp] at hD
  have hDq : 0 < (sa.length * (identifyTypes sa sb).card * (identifyTypes sa sb).card : ℚ) := by
    exact_mod_cast hD
  have hle := (edits_pbs (rt := rt) hl hs kw.nT).2
  rw [← hee, ← hl] at hle
  have hleq : (editCount e : ℚ) ≤
      (sa.length * (identifyTypes sa sb).card * (identifyTypes sa sb).card : ℚ) := by
    exact_mod_cast hle
  have ht : total x y z ≤ editCount e := by
    rw [total, editCount]; push_cast; linarith
  have h0 : 0 ≤ total x y z := by rw [total]; linarith
  have k1 : total x y z / (sa.length * (identifyTypes sa sb).card * (identifyTypes sa sb).card) ≤ 1 := by
    rw [div_le_one hDq]; linarith
  have k2 := div_nonneg h0 hDq.le
  constructor <;> linarith

/-! ## The weights of the package -/

/-- C78: scaling makes boundary similarity larger, and strictly so if there is a near miss or a
confusion. -/
theorem C78_scaling_pays (hr : kw.returnParts = false) (ho : kw.oneMinus = false)
    (ha : Denotes kw.boundaryFormat a sa) (hb : Denotes kw.boundaryFormat b sb)
    (he : boundaryEditDistance rt sa sb kw.nT = .ok e) (v v' : ℚ)
    (h : Returns (boundarySimilarity rt { kw with weight := .default } a b) v)
    (h' : Returns (boundarySimilarity rt { kw with weight := .unscaled } a b) v') :
    v' ≤ v ∧ (v' = v ↔ e.substitutions = [] ∧ e.transpositions = []) := by
  have h2 := (C64_unscaled rt { kw with weight := .unscaled } rfl hr ho a b sa sb ha hb
    (identifyTypes sa sb) (fun t => mem_identifyTypes) e he v').1 h'
  obtain ⟨u, hu, rfl⟩ := h
  obtain ⟨st, hst⟩ := boundarySim_stats hu
  obtain ⟨sa', sb', c, k1, hl, hed, hml, hc, _, c1, _, c3, hD, _⟩ := default_facts hst
  rw [toBStrings_denotes ha hb, Except.ok.injEq, Prod.mk.injEq] at k1
  obtain ⟨rfl, rfl⟩ := k1
  rw [boundaryStatistics_denotes ha hb] at hst
  obtain ⟨_, hbed, he', _⟩ := statistics_ok hst
  rw [hbed, Except.ok.injEq] at he
  rw [← boundaryStatistics_denotes ha hb] at hst
  rw [boundarySim_eq (kw := { kw with weight := .default }) hst hc hD] at hu
  simp only [hr, ho, Bool.false_eq_true, if_false, Except.ok.injEq, MetricOut.num.injEq] at hu
  rw [he'.trans he, hml] at hu hD
  rw [he'.trans he] at c1 c3
  have hDq : 0 < ((editCount e + matchCount sa sb : ℕ) : ℚ) := by exact_mod_cast hD
  rw [← hu, h2, ← c3]
  simp only [PyNum.val]
  push_cast at hDq ⊢
  rw [add_comm (matchCount sa sb : ℚ)]
  constructor
  · rw [div_le_div_iff_of_pos_right hDq]; linarith
  · rw [div_left_inj' hDq.ne']
    constructor <;> intro _ <;> linarith

/-- Weights of a user: half a point for each transposition, one and a half for a substitution. -/
def exWeights : Weights :=
  ⟨weightA, fun l _ _ => .ok (.dec (3 / 2 * l.length)), fun l _ => .ok (.dec (l.length / 2))⟩

example : Charges exWeights 2 5 1 ⟨[⟨1, .a⟩, ⟨5, .b⟩], [⟨3, 1⟩], [⟨1, 2, 1⟩]⟩ (.int 2)
      (.dec (3 / 2)) (.dec (1 / 2)) ∧
    boundaryEditDistance .ascending exA exB 2 = .ok ⟨[⟨1, .a⟩, ⟨5, .b⟩], [⟨3, 1⟩], [⟨1, 2, 1⟩]⟩ ∧
    Returns (boundarySimilarity .ascending { kwSets with weight := exWeights } (.sets exA) (.sets exB))
      (1 - 4 / 6) :=
  ⟨⟨rfl, by decide +kernel, by decide +kernel⟩, by decide +kernel, ⟨.dec (1 / 3), by decide +kernel,
    by norm_num [PyNum.val]⟩⟩

/-- C78: charging one and a half for a substitution, similarity can be negative. -/
theorem C78_overcharged :
    boundarySimilarity .ascending { kwSets with weight := exWeights } (.sets [{1}]) (.sets [{2}]) =
      .ok (.num (.dec (-1 / 2))) := by decide +kernel

/-- C78: a float from one weight function and a Decimal from another make the metric fail. -/
theorem C78_mixed_fails :
    boundarySimilarity .ascending { weight :=
      ⟨weightA, weightSScale, fun l _ => .ok (.flt (l.length / 2))⟩ } (massSeg [2, 3, 1])
      (massSeg [2, 2, 2]) = .error .typeError := by decide +kernel

end SegEval.Props
