import Verif.Lemmas.OneBoundarySteps
import Verif.Props.Wider

/-!
# C114: what one boundary changes in the similarities
-/

namespace SegEval.Props

open SegEval Spec

/-- C114: segmentations with boundaries of one type that differ in `d` boundaries have boundary
similarities to the same reference at most `d / (boundaries of the reference)` apart. -/
theorem C114_boundary (rt : Runtime) (kw : SimKw) (hw : kw.weight = .default)
    (hr : kw.returnParts = false) (ho : kw.oneMinus = false) (a a' b : Seg) (sa sa' sb : BString)
    (ha : Denotes kw.boundaryFormat a sa) (ha' : Denotes kw.boundaryFormat a' sa')
    (hb : Denotes kw.boundaryFormat b sb) (t : ℤ)
    (ht : smallInt t = true ∨ ∀ site, rt.sameObj site t = true) (oa : ∀ p, typesAt sa p ⊆ {t})
    (oa' : ∀ p, typesAt sa' p ⊆ {t}) (ob : ∀ p, typesAt sb p ⊆ {t}) (hpos : 0 < boundaryCount sb)
    (x x' : ℚ) (hx : Returns (boundarySimilarity rt kw a b) x)
    (hx' : Returns (boundarySimilarity rt kw a' b) x') :
    |x - x'| ≤ (symmDiff (boundaries sa) (boundaries sa')).card / boundaryCount sb := by
  obtain ⟨hl, hu, hbed, -, hval⟩ := boundary_value hw hr ho ha hb hx
  obtain ⟨hl', hu', hbed', -, hval'⟩ := boundary_value hw hr ho ha' hb hx'
  obtain ⟨mx, mn, he⟩ := extremes_exist hu
  obtain ⟨mx', mn', he'⟩ := extremes_exist hu'
  rw [hval mx mn he, hval' mx' mn' he',
    credit_plain _ _ _ _ (no_substitutions hl (oneSided_of_oneType oa ob) hbed),
    credit_plain _ _ _ _ (no_substitutions hl' (oneSided_of_oneType oa' ob) hbed')]
  have := only_value (rt := rt) kw.nT ob ht hpos hl hl' oa oa'
  rwa [mul_one_div] at this

theorem one_type_card {a b : BString} {t : ℤ} (ha : ∀ p, typesAt a p ⊆ {t})
    (hb : ∀ p, typesAt b p ⊆ {t}) (h : ∃ t, UsesType a b t) : (identifyTypes a b).card = 1 := by
  obtain ⟨u, p, hp⟩ := h
  rw [Finset.card_eq_one]
  refine ⟨t, Finset.eq_singleton_iff_nonempty_unique_mem.2
    ⟨⟨u, mem_identifyTypes.2 ⟨p, hp⟩⟩, fun v hv => ?_⟩⟩
  obtain ⟨q, hq⟩ := mem_identifyTypes.1 hv
  exact Finset.mem_singleton.1 (hq.elim (fun h => ha q h) fun h => hb q h)

/-- C114: and segmentation similarities at most `d / (potential boundaries)` apart. -/
theorem C114_segmentation (rt : Runtime) (kw : SimKw) (hw : kw.weight = .default)
    (hr : kw.returnParts = false) (ho : kw.oneMinus = false) (a a' b : Seg) (sa sa' sb : BString)
    (ha : Denotes kw.boundaryFormat a sa) (ha' : Denotes kw.boundaryFormat a' sa')
    (hb : Denotes kw.boundaryFormat b sb) (t : ℤ)
    (ht : smallInt t = true ∨ ∀ site, rt.sameObj site t = true) (oa : ∀ p, typesAt sa p ⊆ {t})
    (oa' : ∀ p, typesAt sa' p ⊆ {t}) (ob : ∀ p, typesAt sb p ⊆ {t})
    (x x' : ℚ) (hx : Returns (segmentationSimilarity rt kw a b) x)
    (hx' : Returns (segmentationSimilarity rt kw a' b) x') :
    |x - x'| ≤ (symmDiff (boundaries sa) (boundaries sa')).card / sb.length := by
  obtain ⟨hl, hu, hbed, hval⟩ := segmentation_value hw hr ho ha hb hx
  obtain ⟨hl', hu', hbed', hval'⟩ := segmentation_value hw hr ho ha' hb hx'
  obtain ⟨mx, mn, he⟩ := extremes_exist hu
  obtain ⟨mx', mn', he'⟩ := extremes_exist hu'
  rw [hval mx mn he, hval' mx' mn' he',
    cost_plain _ _ _ (no_substitutions hl (oneSided_of_oneType oa ob) hbed),
    cost_plain _ _ _ (no_substitutions hl' (oneSided_of_oneType oa' ob) hbed'),
    one_type_card oa ob hu, one_type_card oa' ob hu', hl, hl']
  have := only_cost (rt := rt) kw.nT ob ht hl hl' oa oa'
  rw [plainCost, plainCost] at this
  rw [sub_sub_sub_cancel_left, Nat.cast_one, mul_one, mul_one, ← sub_div, abs_div,
    abs_of_nonneg (Nat.cast_nonneg sb.length : (0 : ℚ) ≤ sb.length), abs_sub_comm]
  exact div_le_div_of_nonneg_right this (Nat.cast_nonneg _)

/-- C114 for the formats with one type: no condition on types is left. -/
theorem C114_formats (rt : Runtime) (kw : SimKw) (hw : kw.weight = .default)
    (hr : kw.returnParts = false) (ho : kw.oneMinus = false) (hf : kw.boundaryFormat ≠ .sets)
    (a a' b : Seg) (sa sa' sb : BString)
    (ha : Denotes kw.boundaryFormat a sa) (ha' : Denotes kw.boundaryFormat a' sa')
    (hb : Denotes kw.boundaryFormat b sb) (x x' : ℚ) :
    (0 < boundaryCount sb → Returns (boundarySimilarity rt kw a b) x →
      Returns (boundarySimilarity rt kw a' b) x' →
      |x - x'| ≤ (symmDiff (boundaries sa) (boundaries sa')).card / boundaryCount sb) ∧
    (Returns (segmentationSimilarity rt kw a b) x → Returns (segmentationSimilarity rt kw a' b) x' →
      |x - x'| ≤ (symmDiff (boundaries sa) (boundaries sa')).card / sb.length) :=
  have ht : smallInt 1 = true ∨ ∀ site, rt.sameObj site 1 = true := .inl (by decide)
  ⟨fun hpos hx hx' => C114_boundary rt kw hw hr ho a a' b sa sa' sb ha ha' hb 1 ht
    (denotes_types ha hf) (denotes_types ha' hf) (denotes_types hb hf) hpos x x' hx hx',
   fun hx hx' => C114_segmentation rt kw hw hr ho a a' b sa sa' sb ha ha' hb 1 ht
    (denotes_types ha hf) (denotes_types ha' hf) (denotes_types hb hf) x x' hx hx'⟩

/-- The bounds are reached: leaving out one of three boundaries. -/
example : Denotes .mass (massSeg [2, 2, 4]) [∅, {1}, ∅, {1}, ∅, ∅, ∅] ∧
    Denotes .mass (massSeg [2, 2, 2, 2]) [∅, {1}, ∅, {1}, ∅, {1}, ∅] ∧
    symmDiff (boundaries [∅, {1}, ∅, {1}, ∅, ∅, ∅]) (boundaries [∅, {1}, ∅, {1}, ∅, {1}, ∅]) =
      {(5, 1)} ∧
    boundaryCount [∅, {1}, ∅, {1}, ∅, {1}, ∅] = 3 ∧
    Returns (boundarySimilarity .ascending {} (massSeg [2, 2, 4]) (massSeg [2, 2, 2, 2])) (2 / 3) ∧
    Returns (boundarySimilarity .ascending {} (massSeg [2, 2, 2, 2]) (massSeg [2, 2, 2, 2])) 1 ∧
    Returns (segmentationSimilarity .ascending {} (massSeg [2, 2, 4]) (massSeg [2, 2, 2, 2])) (6 / 7) ∧
    Returns (segmentationSimilarity .ascending {} (massSeg [2, 2, 2, 2]) (massSeg [2, 2, 2, 2])) 1 :=
  ⟨massSeg_denotes _ (by decide) (by decide) _ (by decide +kernel),
    massSeg_denotes _ (by decide) (by decide) _ (by decide +kernel), by decide +kernel, by decide +kernel,
    ⟨.dec (2 / 3), by decide +kernel, by norm_num [PyNum.val]⟩,
    ⟨.dec 1, by decide +kernel, by norm_num [PyNum.val]⟩,
    ⟨.dec (6 / 7), by decide +kernel, by norm_num [PyNum.val]⟩,
    ⟨.dec 1, by decide +kernel, by norm_num [PyNum.val]⟩⟩

/-- C114, several types, one boundary more: the change of boundary similarity is at most one over the
boundaries of either string, if at no position each string has a type the other lacks. -/
theorem C114_boundary_types (rt : Runtime) (kw : SimKw) (hw : kw.weight = .default)
    (hr : kw.returnParts = false) (ho : kw.oneMinus = false) (a a' b : Seg) (sa sa' sb : BString)
    (ha : Denotes kw.boundaryFormat a sa) (ha' : Denotes kw.boundaryFormat a' sa')
    (hb : Denotes kw.boundaryFormat b sb) (hs : SharedTypes rt sa sb) (hs' : SharedTypes rt sa' sb)
    (h1 : OneSided sa sb) (h1' : OneSided sa' sb) (p : ℕ) (t : ℤ) (hm : OneMore sa sa' p t)
    (x x' : ℚ) (hx : Returns (boundarySimilarity rt kw a b) x)
    (hx' : Returns (boundarySimilarity rt kw a' b) x') :
    |x - x'| ≤ 1 / (max (boundaryCount sa) (boundaryCount sb) : ℕ) := by
  obtain ⟨hl, hu, hbed, hpos, hval⟩ := boundary_value hw hr ho ha hb hx
  obtain ⟨hl', hu', hbed', -, hval'⟩ := boundary_value hw hr ho ha' hb hx'
  obtain ⟨mx, mn, he⟩ := extremes_exist hu
  obtain ⟨mx', mn', he'⟩ := extremes_exist hu'
  rw [hval mx mn he, hval' mx' mn' he', credit_plain _ _ _ _ (no_substitutions hl h1 hbed),
    credit_plain _ _ _ _ (no_substitutions hl' h1' hbed'), abs_sub_comm]
  have hmax : 0 < max (boundaryCount sa) (boundaryCount sb) := by
    obtain ⟨u, q, hq⟩ := hu
    have : 0 < (boundaries sa).card ∨ 0 < (boundaries sb).card := by
      rw [Finset.card_pos, Finset.card_pos]
      exact hq.imp (fun h => ⟨(q, u), mem_boundaries.2 h⟩) fun h => ⟨(q, u), mem_boundaries.2 h⟩
    rw [boundaries_card, boundaries_card] at this
    omega
  obtain ⟨g1, g2⟩ := edits_ge hl hs hbed
  refine (value_step hm hl hs hs' h1 h1' hbed hbed' hpos).trans
    (one_div_le_one_div_of_le (by exact_mod_cast hmax) ?_)
  exact_mod_cast max_le g1 g2

/-- C114, several types, one boundary more of a type already in use: the change of segmentation
similarity. -/
theorem C114_segmentation_types (rt : Runtime) (kw : SimKw) (hw : kw.weight = .default)
    (hr : kw.returnParts = false) (ho : kw.oneMinus = false) (a a' b : Seg) (sa sa' sb : BString)
    (ha : Denotes kw.boundaryFormat a sa) (ha' : Denotes kw.boundaryFormat a' sa')
    (hb : Denotes kw.boundaryFormat b sb) (hs : SharedTypes rt sa sb) (hs' : SharedTypes rt sa' sb)
    (h1 : OneSided sa sb) (h1' : OneSided sa' sb) (p : ℕ) (t : ℤ) (hm : OneMore sa sa' p t)
    (hu : UsesType sa sb t) (types : Finset ℤ) (hty : ∀ u, u ∈ types ↔ UsesType sa sb u)
    (x x' : ℚ) (hx : Returns (segmentationSimilarity rt kw a b) x)
    (hx' : Returns (segmentationSimilarity rt kw a' b) x') :
    |x - x'| ≤ 1 / (sb.length * types.card * types.card) := by
  obtain ⟨hl, -, hbed, hval⟩ := segmentation_value hw hr ho ha hb hx
  obtain ⟨hl', hu', hbed', hval'⟩ := segmentation_value hw hr ho ha' hb hx'
  obtain ⟨mx, mn, he⟩ := extremes_exist ⟨t, hu⟩
  obtain ⟨mx', mn', he'⟩ := extremes_exist hu'
  have ht : types = identifyTypes sa sb := by ext u; rw [hty, mem_identifyTypes]
  have ht' : types = identifyTypes sa' sb := by
    ext u
    rw [hty, mem_identifyTypes]
    constructor
    · rintro ⟨q, hq⟩
      exact ⟨q, hq.imp_left fun h => (hm.mem q u).2 (.inr h)⟩
    · rintro ⟨q, hq | hq⟩
      · rcases (hm.mem q u).1 hq with h | h
        · rw [(Prod.mk.inj h).2]; exact hu
        · exact ⟨q, .inl h⟩
      · exact ⟨q, .inr hq⟩
  rw [hval mx mn he, hval' mx' mn' he', cost_plain _ _ _ (no_substitutions hl h1 hbed),
    cost_plain _ _ _ (no_substitutions hl' h1' hbed'), ← ht, ← ht', hl, hl']
  have := (one_more hm hl hs hs' h1 h1' hbed hbed').2.2.2.2
  have hd : (0 : ℚ) ≤ sb.length * types.card * types.card := by positivity
  rw [sub_sub_sub_cancel_left, ← sub_div, abs_div, abs_of_nonneg hd]
  exact div_le_div_of_nonneg_right this hd

example : OneMore [{1, 2}, ∅, ∅] [{1, 2}, ∅, {2}] 2 2 ∧
    Returns (boundarySimilarity .ascending kwSets (.sets [{1, 2}, ∅, ∅]) (.sets [{1, 2}, {2}, ∅])) (2 / 3) ∧
    Returns (boundarySimilarity .ascending kwSets (.sets [{1, 2}, ∅, {2}]) (.sets [{1, 2}, {2}, ∅]))
      (5 / 6) := by
  refine ⟨⟨rfl, by decide, by decide, by decide, fun q hq => ?_⟩,
    ⟨.dec (2 / 3), by decide +kernel, by norm_num [PyNum.val]⟩,
    ⟨.dec (5 / 6), by decide +kernel, by norm_num [PyNum.val]⟩⟩
  match q with
  | 0 | 1 => rfl
  | 2 => exact absurd rfl hq
  | _ + 3 => rfl

/-- C114 without that condition is false: a boundary more can turn a transposition and an addition into
a substitution and a match, and boundary similarity rises by 7/12 though the reference has two
boundaries; or a substitution into a transposition and an addition, and segmentation similarity falls
by 7/72 where a whole edit is 1/12. -/
theorem C114_two_types :
    OneMore [{1}, ∅, ∅] [{1}, ∅, {1}] 2 1 ∧ boundaryCount [{2}, ∅, {1}] = 2 ∧
    Returns (boundarySimilarity .ascending { kwSets with nT := 3 } (.sets [{1}, ∅, ∅])
      (.sets [{2}, ∅, {1}])) (1 / 6) ∧
    Returns (boundarySimilarity .ascending { kwSets with nT := 3 } (.sets [{1}, ∅, {1}])
      (.sets [{2}, ∅, {1}])) (3 / 4) ∧
    OneMore [{2}, ∅, ∅] [{2}, ∅, {1}] 2 1 ∧
    Returns (segmentationSimilarity .ascending { kwSets with nT := 3 } (.sets [{2}, ∅, ∅])
      (.sets [{1}, ∅, ∅])) (23 / 24) ∧
    Returns (segmentationSimilarity .ascending { kwSets with nT := 3 } (.sets [{2}, ∅, {1}])
      (.sets [{1}, ∅, ∅])) (31 / 36) := by
  refine ⟨⟨rfl, by decide, by decide, by decide, fun q hq => ?_⟩, by decide +kernel,
    ⟨.dec (1 / 6), by decide +kernel, by norm_num [PyNum.val]⟩,
    ⟨.dec (3 / 4), by decide +kernel, by norm_num [PyNum.val]⟩,
    ⟨rfl, by decide, by decide, by decide, fun q hq => ?_⟩,
    ⟨.dec (23 / 24), by decide +kernel, by norm_num [PyNum.val]⟩,
    ⟨.dec (31 / 36), by decide +kernel, by norm_num [PyNum.val]⟩⟩
  all_goals
    match q with
    | 0 | 1 => rfl
    | 2 => exact absurd rfl hq
    | _ + 3 => rfl

/-- C114 for the unscaled weight functions. -/
theorem C114_unscaled (rt : Runtime) (kw : SimKw) (hw : kw.weight = .unscaled)
    (hr : kw.returnParts = false) (ho : kw.oneMinus = false) (a a' b : Seg) (sa sa' sb : BString)
    (ha : Denotes kw.boundaryFormat a sa) (ha' : Denotes kw.boundaryFormat a' sa')
    (hb : Denotes kw.boundaryFormat b sb) (hl : sa.length = sb.length) (hl' : sa'.length = sb.length)
    (t : ℤ) (ht : smallInt t = true ∨ ∀ site, rt.sameObj site t = true)
    (oa : ∀ p, typesAt sa p ⊆ {t}) (oa' : ∀ p, typesAt sa' p ⊆ {t}) (ob : ∀ p, typesAt sb p ⊆ {t})
    (hpos : 0 < boundaryCount sb) (x x' : ℚ) :
    (Returns (boundarySimilarity rt kw a b) x → Returns (boundarySimilarity rt kw a' b) x' →
      |x - x'| ≤ (symmDiff (boundaries sa) (boundaries sa')).card / boundaryCount sb) ∧
    (Returns (segmentationSimilarity rt kw a b) x → Returns (segmentationSimilarity rt kw a' b) x' →
      |x - x'| ≤ (symmDiff (boundaries sa) (boundaries sa')).card / sb.length) := by
  obtain ⟨c1, c2⟩ := C64_unscaled rt kw hw hr ho a b sa sb ha hb _ (fun t => mem_identifyTypes) _
    (only_edits oa ob hl kw.nT) x
  obtain ⟨d1, d2⟩ := C64_unscaled rt kw hw hr ho a' b sa' sb ha' hb _ (fun t => mem_identifyTypes) _
    (only_edits oa' ob hl' kw.nT) x'
  have hu : ∃ u q, u ∈ typesAt sb q := by
    rw [← boundaries_card, Finset.card_pos] at hpos
    obtain ⟨⟨q, u⟩, h⟩ := hpos
    exact ⟨u, q, mem_boundaries.1 h⟩
  obtain ⟨u, q, hq⟩ := hu
  rw [one_type_card oa ob ⟨u, q, .inr hq⟩, hl] at c2
  rw [one_type_card oa' ob ⟨u, q, .inr hq⟩, hl'] at d2
  constructor
  · intro hx hx'
    rw [c1 hx, d1 hx', ← mul_one_div _ (boundaryCount sb : ℚ)]
    refine chain (t := t) (n := sb.length) (fun s => (matchCount s sb : ℚ) /
      (matchCount s sb + editCount (editsOf rt s sb kw.nT))) (fun s s' p hs h h' hm => ?_) _ sa sa' hl
      hl' oa oa' rfl
    have he := only_edits (rt := rt) h ob hs kw.nT
    have he' := only_edits (rt := rt) h' ob (hm.length.trans hs) kw.nT
    obtain ⟨-, -, h3, h4, -⟩ := one_more hm hs (only_shared h ob ht) (only_shared h' ob ht)
      (oneSided_of_oneType h ob) (oneSided_of_oneType h' ob) he he'
    have hg := (edits_ge hs (only_shared h ob ht) he).2
    have hm1 : matchCount s sb ≤ matchCount s' sb ∧ matchCount s' sb ≤ matchCount s sb + 1 := by
      by_cases hb' : t ∈ typesAt sb p
      · rw [matchCount_in hm hb']; omega
      · rw [matchCount_out hm hb']; omega
    have hD : 0 < matchCount s sb + editCount (editsOf rt s sb kw.nT) := by omega
    refine (fraction_close (by exact_mod_cast hD) (Nat.cast_nonneg _) ?_ (by exact_mod_cast hm1.1)
      (by exact_mod_cast hm1.2) ?_ ?_).trans
      (one_div_le_one_div_of_le (by exact_mod_cast hpos) (by exact_mod_cast hg.trans (by omega)))
    · have : (0 : ℚ) ≤ editCount (editsOf rt s sb kw.nT) := Nat.cast_nonneg _
      linarith
    · exact_mod_cast (by omega : matchCount s sb + editCount (editsOf rt s sb kw.nT) ≤
        matchCount s' sb + editCount (editsOf rt s' sb kw.nT))
    · exact_mod_cast (by omega : matchCount s' sb + editCount (editsOf rt s' sb kw.nT) ≤
        matchCount s sb + editCount (editsOf rt s sb kw.nT) + 1)
  · intro hx hx'
    rw [c2 hx, d2 hx', sub_sub_sub_cancel_left, Nat.cast_one, mul_one, mul_one, ← sub_div, abs_div,
      abs_of_nonneg (Nat.cast_nonneg sb.length : (0 : ℚ) ≤ sb.length), abs_sub_comm]
    refine div_le_div_of_nonneg_right ?_ (Nat.cast_nonneg _)
    have := chain (t := t) (n := sb.length) (b := 1) (fun s => (editCount (editsOf rt s sb kw.nT) : ℚ))
      (fun s s' p hs h h' hm => ?_) _ sa sa' hl hl' oa oa' rfl
    · simpa using this
    · obtain ⟨-, -, h3, h4, -⟩ := one_more hm hs (only_shared h ob ht) (only_shared h' ob ht)
        (oneSided_of_oneType h ob) (oneSided_of_oneType h' ob) (only_edits (rt := rt) h ob hs kw.nT)
        (only_edits (rt := rt) h' ob (hm.length.trans hs) kw.nT)
      have hm1 : matchCount s sb ≤ matchCount s' sb ∧ matchCount s' sb ≤ matchCount s sb + 1 := by
        by_cases hb' : t ∈ typesAt sb p
        · rw [matchCount_in hm hb']; omega
        · rw [matchCount_out hm hb']; omega
      have e1 : editCount (editsOf rt s' sb kw.nT) ≤ editCount (editsOf rt s sb kw.nT) + 1 := by omega
      have e2 : editCount (editsOf rt s sb kw.nT) ≤ editCount (editsOf rt s' sb kw.nT) + 1 := by omega
      have f1 : (editCount (editsOf rt s' sb kw.nT) : ℚ) ≤ editCount (editsOf rt s sb kw.nT) + 1 := by
        exact_mod_cast e1
      have f2 : (editCount (editsOf rt s sb kw.nT) : ℚ) ≤ editCount (editsOf rt s' sb kw.nT) + 1 := by
        exact_mod_cast e2
      rw [abs_le]
      constructor <;> linarith

example :
    Returns (boundarySimilarity .ascending { weight := .unscaled } (massSeg [2, 2, 4])
      (massSeg [2, 2, 2, 2])) (2 / 3) ∧
    Returns (boundarySimilarity .ascending { weight := .unscaled } (massSeg [2, 6])
      (massSeg [2, 2, 2, 2])) (1 / 3) :=
  ⟨⟨.flt (2 / 3), by decide +kernel, by norm_num [PyNum.val]⟩,
    ⟨.flt (1 / 3), by decide +kernel, by norm_num [PyNum.val]⟩⟩

end SegEval.Props
