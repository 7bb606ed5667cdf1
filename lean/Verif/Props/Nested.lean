import Verif.Lemmas.OneBoundarySteps
import Verif.Props.Wider
import Verif.Props.Symmetries

/-!
# C116: one segmentation refines the other
-/

namespace SegEval.Props

open SegEval Spec

/-- Every boundary of `a` is one of `b`. -/
def Refines (a b : BString) : Prop := ∀ p, typesAt a p ⊆ typesAt b p

theorem Refines.oneSided {a b : BString} (h : Refines a b) : OneSided a b := fun p =>
  .inl (by rw [onlyIn, Finset.sdiff_eq_empty_iff_subset]; exact h p)

theorem Refines.boundaries {a b : BString} (h : Refines a b) : boundaries a ⊆ boundaries b := by
  rintro ⟨p, t⟩ hx
  rw [mem_boundaries] at hx ⊢
  exact h p hx

/-- Nothing can be moved, so that the edits are the boundaries one string lacks, for every `n_t`. -/
theorem Refines.edits {rt : Runtime} {a b : BString} (h : Refines a b) (hl : a.length = b.length)
    (hs : SharedTypes rt a b) {nT : ℤ} {e : Edits} (he : boundaryEditDistance rt a b nT = .ok e) :
    e.transpositions = [] ∧ editCount e + boundaryCount a = boundaryCount b ∧
      matchCount a b = boundaryCount a := by
  have hT : e.transpositions = [] := by
    rw [List.eq_nil_iff_forall_not_mem]
    intro t ht
    have hg := (C07_transpositions_genuine rt a b hl nT e he t ht).moves
    have : ∀ p, onlyIn a b p = ∅ := fun p => by
      rw [onlyIn, Finset.sdiff_eq_empty_iff_subset]; exact h p
    unfold Moves at hg
    simp [this] at hg
  have hm : matchCount a b = boundaryCount a := by
    rw [matches_card, Finset.inter_eq_left.2 h.boundaries, boundaries_card]
  refine ⟨hT, ?_, hm⟩
  have h1 := (edits_misses hl hs h.oneSided he).1
  rw [hT, List.length_nil, Nat.add_zero] at h1
  have h2 : Chain.misses a b = Spec.boundaries b \ Spec.boundaries a := by
    ext ⟨p, t⟩
    rw [Chain.mem_misses hl, Finset.mem_sdiff, mem_boundaries, mem_boundaries, missedAt_iff]
    simp only
    by_cases ha : t ∈ typesAt a p
    · simp [ha, h p ha]
    · simp [ha]
  rw [h1, h2, Finset.card_sdiff_of_subset h.boundaries, ← boundaries_card, ← boundaries_card]
  exact Nat.sub_add_cancel (Finset.card_le_card h.boundaries)

/-- C116: if one segmentation has all boundaries of the other, boundary similarity is the ratio of their
numbers of boundaries, and segmentation similarity one less the share of the boundaries it lacks, for
every `n_t`. -/
theorem C116_refines (rt : Runtime) (kw : SimKw) (hw : kw.weight = .default)
    (hr : kw.returnParts = false) (ho : kw.oneMinus = false) (a b : Seg) (sa sb : BString)
    (ha : Denotes kw.boundaryFormat a sa) (hb : Denotes kw.boundaryFormat b sb)
    (hs : SharedTypes rt sa sb) (h : ∀ p, typesAt sa p ⊆ typesAt sb p) (x : ℚ) :
    (Returns (boundarySimilarity rt kw a b) x → x = boundaryCount sa / boundaryCount sb) ∧
    (Returns (segmentationSimilarity rt kw a b) x → ∀ types : Finset ℤ,
      (∀ t, t ∈ types ↔ UsesType sa sb t) →
      x = 1 - ((boundaryCount sb : ℚ) - boundaryCount sa) / (sb.length * types.card * types.card)) := by
  have h' : Refines sa sb := h
  constructor
  · intro hx
    obtain ⟨hl, hu, hbed, hpos, hval⟩ := boundary_value hw hr ho ha hb hx
    obtain ⟨mx, mn, he⟩ := extremes_exist hu
    obtain ⟨e1, e2, e3⟩ := h'.edits hl hs hbed
    rw [hval mx mn he, credit_plain _ _ _ _ (no_substitutions hl h'.oneSided hbed), e1, e3, ← e2]
    simp [transpositionCredit]
  · intro hx types ht
    obtain ⟨hl, hu, hbed, hval⟩ := segmentation_value hw hr ho ha hb hx
    obtain ⟨mx, mn, he⟩ := extremes_exist hu
    obtain ⟨e1, e2, e3⟩ := h'.edits hl hs hbed
    have : types = identifyTypes sa sb := by ext t; rw [ht, mem_identifyTypes]
    rw [hval mx mn he, cost_plain _ _ _ (no_substitutions hl h'.oneSided hbed), e1, ← e2, this, hl]
    simp [transpositionCredit]

/-- A coarser segmentation against a finer one, near misses or not. -/
example : Returns (boundarySimilarity .ascending {} (massSeg [4, 4]) (massSeg [2, 1, 1, 4])) (1 / 3) ∧
    Returns (boundarySimilarity .ascending { nT := 5 } (massSeg [4, 4]) (massSeg [2, 1, 1, 4])) (1 / 3) ∧
    Returns (segmentationSimilarity .ascending {} (massSeg [4, 4]) (massSeg [2, 1, 1, 4])) (5 / 7) :=
  ⟨⟨.dec (1 / 3), by decide +kernel, by norm_num [PyNum.val]⟩,
    ⟨.dec (1 / 3), by decide +kernel, by norm_num [PyNum.val]⟩,
    ⟨.dec (5 / 7), by decide +kernel, by norm_num [PyNum.val]⟩⟩

/-! ## Baselines -/

theorem pattern_count (p : List Bool) :
    boundaryCount (p.map (fun x => if x then ({1} : Finset ℤ) else ∅)) = p.count true := by
  rw [boundaryCount, List.length_map]
  induction p with
  | nil => simp
  | cons x p ih =>
    rw [List.length_cons, Finset.sum_range_succ', List.count_cons]
    have : ∀ q, typesAt ((x :: p).map (fun x => if x then ({1} : Finset ℤ) else ∅)) (q + 1) =
        typesAt (p.map (fun x => if x then ({1} : Finset ℤ) else ∅)) q := fun q => rfl
    simp only [this]
    rw [ih]
    cases x <;> simp [typesAt]

/-- C116: a boundary everywhere scores the share of potential boundaries that the reference has, with
both similarities and every `n_t`. -/
theorem C116_everywhere (rt : Runtime) (kw : SimKw) (hw : kw.weight = .default)
    (hr : kw.returnParts = false) (ho : kw.oneMinus = false) (hf : kw.boundaryFormat ≠ .sets)
    (a b : Seg) (n : ℕ) (pb : List Bool) (ha : Means kw.boundaryFormat a (List.replicate n true))
    (hb : Means kw.boundaryFormat b pb) (hl : pb.length = n) (x : ℚ) :
    (Returns (boundarySimilarity rt kw b a) x → x = pb.count true / n) ∧
    (Returns (segmentationSimilarity rt kw b a) x → x = pb.count true / n) := by
  have den : ∀ {s p}, Means kw.boundaryFormat s p →
      Denotes kw.boundaryFormat s (p.map (fun x => if x then ({1} : Finset ℤ) else ∅)) := by
    intro s p h
    generalize kw.boundaryFormat = fmt at *
    match fmt, s with
    | .sets, _ => exact absurd rfl hf
    | .mass, s | .position, s | .nltk, s | .other, s => exact ⟨p, h, rfl⟩
  have da := den ha
  have db := den hb
  have hsub : ∀ p, typesAt (pb.map (fun x => if x then ({1} : Finset ℤ) else ∅)) p ⊆
      typesAt ((List.replicate n true).map (fun x => if x then ({1} : Finset ℤ) else ∅)) p := by
    intro p
    unfold typesAt
    rw [List.getElem?_map, List.getElem?_map]
    by_cases hp : p < n
    · rw [List.getElem?_replicate, if_pos hp, List.getElem?_eq_getElem (by omega)]
      cases pb[p] <;> simp
    · rw [List.getElem?_eq_none (by omega)]
      simp
  have hc : boundaryCount ((List.replicate n true).map (fun x => if x then ({1} : Finset ℤ) else ∅)) =
      n := by rw [pattern_count]; simp
  obtain ⟨g1, g2⟩ := C116_refines rt kw hw hr ho b a _ _ db da (denotes_shared rt db da hf) hsub x
  rw [hc, pattern_count] at g1 g2
  refine ⟨g1, fun hx => ?_⟩
  obtain ⟨hl', hu, -, -⟩ := segmentation_value hw hr ho db da hx
  have hn : 0 < n := by
    rcases Nat.eq_zero_or_pos n with h0 | h0
    · obtain ⟨t, p, hp⟩ := hu
      rw [List.length_eq_zero_iff.1 (hl.trans h0), h0] at hp
      simp [typesAt] at hp
    · exact h0
  have h1 := g2 hx {1} (fun t => by
    rw [Finset.mem_singleton]
    constructor
    · rintro rfl
      refine ⟨0, .inr ?_⟩
      simp [typesAt, hn]
    · rintro ⟨p, hp | hp⟩
      · exact Finset.mem_singleton.1 (denotes_types db hf p hp)
      · exact Finset.mem_singleton.1 (denotes_types da hf p hp))
  rw [h1]
  have : (n : ℚ) ≠ 0 := by exact_mod_cast hn.ne'
  simp only [List.length_map, List.length_replicate, Finset.card_singleton, Nat.cast_one, mul_one]
  field_simp
  ring

theorem between_none (n i k : ℕ) : between (List.replicate n false) i k = 0 := by
  rw [between_zero_iff]
  intro m _ _ h
  rw [List.getElem?_replicate] at h
  split at h <;> simp at h

theorem between_all {n i k : ℕ} (h : i + k ≤ n) : between (List.replicate n true) i k = k := by
  unfold between
  rw [List.drop_replicate, List.take_replicate, List.count_replicate_self]
  omega

section
variable (kw : WinKw) (none all r : Seg) (pr : List Bool) (k : ℕ)

/-- C116: the Pk of no boundaries at all is the share of probes the reference separates, and that of a
boundary everywhere the share it does not: the two make up 1. -/
theorem C116_pk_baselines (hf : WindowFormat kw.boundaryFormat)
    (hn : Means kw.boundaryFormat none (List.replicate pr.length false))
    (ha : Means kw.boundaryFormat all (List.replicate pr.length true))
    (hr : Means kw.boundaryFormat r pr) (un : Unrepeated kw.boundaryFormat none)
    (ua : Unrepeated kw.boundaryFormat all) (ur : Unrepeated kw.boundaryFormat r)
    (hk : UsesWindow kw pr k) (h1 : 1 ≤ k) (hlt : k < pr.length + 1) (hrp : kw.returnParts = false)
    (hom : kw.oneMinus = false) (x y : ℚ) (hx : Returns (pk kw none r) x)
    (hy : Returns (pk kw all r) y) :
    x = ((Finset.range (windows (pr.length + 1) k)).filter (fun i => between pr i k ≠ 0)).card /
      (windows (pr.length + 1) k : ℕ) ∧ x + y = 1 := by
  rw [returns_unique hx (C60_pk_formula kw hf none r _ _ hn hr un ur (by simp) k hk hrp hom),
    returns_unique hy (C60_pk_formula kw hf all r _ _ ha hr ua ur (by simp) k hk hrp hom)]
  have e1 : pkErrors (List.replicate pr.length false) pr k =
      (Finset.range (windows (pr.length + 1) k)).filter (fun i => between pr i k ≠ 0) := by
    refine Finset.filter_congr fun i _ => ?_
    unfold PkError
    rw [between_none]
    simp
  have e2 : pkErrors (List.replicate pr.length true) pr k =
      (Finset.range (windows (pr.length + 1) k)).filter (fun i => ¬ between pr i k ≠ 0) := by
    refine Finset.filter_congr fun i hi => ?_
    rw [Finset.mem_range, windows] at hi
    unfold PkError
    rw [between_all (by omega)]
    have : k ≠ 0 := by omega
    simp [this]
  rw [e1, e2]
  refine ⟨rfl, ?_⟩
  have hc := Finset.card_filter_add_card_filter_not (s := Finset.range (windows (pr.length + 1) k))
    (fun i => between pr i k ≠ 0)
  rw [Finset.card_range] at hc
  have hw : windows (pr.length + 1) k ≠ 0 := by unfold windows; omega
  rw [← add_div, div_eq_one_iff_eq (by exact_mod_cast hw)]
  exact_mod_cast hc

/-- C116: on no boundaries at all WindowDiff is Pk. -/
theorem C116_window_diff_none (hf : WindowFormat kw.boundaryFormat)
    (hn : Means kw.boundaryFormat none (List.replicate pr.length false))
    (hr : Means kw.boundaryFormat r pr) (un : Unrepeated kw.boundaryFormat none)
    (ur : Unrepeated kw.boundaryFormat r) (nn : Neighbours kw.boundaryFormat none)
    (nr : Neighbours kw.boundaryFormat r) (hk : UsesWindow kw pr k) (hlt : k < pr.length + 1)
    (hfix : kw.lamprierFix = false) (hrp : kw.returnParts = false)
    (hom : kw.oneMinus = false) (x y : ℚ) (hx : Returns (pk kw none r) x)
    (hy : Returns (windowDiff kw none r) y) : x = y := by
  rw [returns_unique hx (C60_pk_formula kw hf none r _ _ hn hr un ur (by simp) k hk hrp hom),
    ((C61_returns_iff kw hf none r _ _ hn hr nn nr (by simp) k hk hlt hfix hrp hom y).1 hy).2]
  congr 3
  refine Finset.filter_congr fun i _ => ?_
  unfold PkError WdError
  rw [between_none]
  rw [ne_comm]
  simp

end

example : Means .mass (massSeg [6]) (List.replicate 5 false) ∧
    Means .mass (massSeg [1, 1, 1, 1, 1, 1]) (List.replicate 5 true) ∧
    Returns (pk { windowSize := some 2 } (massSeg [6]) (massSeg [2, 4])) (1 / 2) ∧
    Returns (pk { windowSize := some 2 } (massSeg [1, 1, 1, 1, 1, 1]) (massSeg [2, 4])) (1 / 2) ∧
    Returns (windowDiff { windowSize := some 2 } (massSeg [6]) (massSeg [2, 4])) (1 / 2) ∧
    Returns (windowDiff { windowSize := some 2 } (massSeg [1, 1, 1, 1, 1, 1]) (massSeg [2, 4])) 1 ∧
    Returns (boundarySimilarity .ascending {} (massSeg [2, 4]) (massSeg [1, 1, 1, 1, 1, 1])) (1 / 5) ∧
    Returns (segmentationSimilarity .ascending {} (massSeg [2, 4]) (massSeg [1, 1, 1, 1, 1, 1])) (1 / 5) :=
  ⟨(massMeans_iff _ _).2 ⟨by decide, by decide, by decide⟩,
    (massMeans_iff _ _).2 ⟨by decide, by decide, by decide⟩,
    ⟨.dec (1 / 2), by decide +kernel, by norm_num [PyNum.val]⟩,
    ⟨.dec (1 / 2), by decide +kernel, by norm_num [PyNum.val]⟩,
    ⟨.dec (1 / 2), by decide +kernel, by norm_num [PyNum.val]⟩,
    ⟨.dec 1, by decide +kernel, by norm_num [PyNum.val]⟩,
    ⟨.dec (1 / 5), by decide +kernel, by norm_num [PyNum.val]⟩,
    ⟨.dec (1 / 5), by decide +kernel, by norm_num [PyNum.val]⟩⟩

end SegEval.Props
