import Verif.Lemmas.RoundedWindow
import Verif.Props.Similarity
import Verif.Props.WindowMetrics

/-!
# C68–C71: the metrics with rounded arithmetic
-/

namespace SegEval.Props

open SegEval Spec

/-! ## The rounding of the default context -/

/-- C68: rounding to 28 digits keeps the order and integers up to `10 ^ 28`. -/
theorem C68_context : Faithful Rounding.cpython.dec (10 ^ 28) ∧
    Accurate Rounding.cpython.dec (1 / (2 * 10 ^ 27)) := ⟨cpython_faithful, cpython_accurate⟩

/-- `Decimal(2) / 3` in the default context, and a tie. -/
example : Rounding.cpython.dec (2 / 3) = 6666666666666666666666666667 / 10 ^ 28 ∧
    Rounding.cpython.dec (10 ^ 28 + 5) = 10 ^ 28 ∧
    Rounding.cpython.dec (10 ^ 28 + 15) = 10 ^ 28 + 20 := by decide +kernel

/-! ## Range -/

/-- C68: however `Decimal` results are rounded, boundary similarity stays in `[0, 1]`. -/
theorem C68_boundary (ρ : Rounding) (limit : ℕ) (hr : Faithful ρ.dec limit) (rt : Runtime)
    (kw : SimKw) (hw : kw.weight = .defaultR ρ) (a b : Seg) (sa sb : BString)
    (ha : Denotes kw.boundaryFormat a sa) (hb : Denotes kw.boundaryFormat b sb)
    (hsize : ∀ e, boundaryEditDistance rt sa sb kw.nT = .ok e →
      editCount e + matchCount sa sb ≤ limit)
    (x : ℚ) (h : Returns (boundarySimilarityR ρ rt kw a b) x) : 0 ≤ x ∧ x ≤ 1 := by
  obtain ⟨v, h, rfl⟩ := h
  obtain ⟨st', hst'⟩ := boundarySimR_stats h
  rw [hw] at hst'
  obtain ⟨R, sa', sb', st, hB⟩ := beside_of_rounded ρ hst'
  have hs := hB.strings
  rw [toBStrings_denotes ha hb, Except.ok.injEq, Prod.mk.injEq] at hs
  obtain ⟨rfl, rfl⟩ := hs
  have hsz := hsize _ hB.edits
  rw [← hB.matches_] at hsz
  have hround := hB.rounded
  rw [← hw] at hround
  rw [boundarySimR_eq hround rfl hB.den_pos] at h
  simp only at h
  split at h
  · cases h
  · simp only [Except.ok.injEq, MetricOut.num.injEq] at h
    subst h
    obtain ⟨c0, c1⟩ := roundedCost_bounds hr hB.script (by omega)
    exact roundedRatio_range hr _ hB.den_pos hsz c0 (le_trans c1 (by push_cast; simp))

/-- C68: so does segmentation similarity. -/
theorem C68_segmentation (ρ : Rounding) (limit : ℕ) (hr : Faithful ρ.dec limit) (rt : Runtime)
    (kw : SimKw) (hw : kw.weight = .defaultR ρ) (a b : Seg) (sa sb : BString)
    (ha : Denotes kw.boundaryFormat a sa) (hb : Denotes kw.boundaryFormat b sb)
    (hs : SharedTypes rt sa sb) (types : Finset ℤ) (ht : ∀ u, UsesType sa sb u ↔ u ∈ types)
    (hsize : sa.length * types.card ^ 2 ≤ limit)
    (x : ℚ) (h : Returns (segmentationSimilarityR ρ rt kw a b) x) : 0 ≤ x ∧ x ≤ 1 := by
  obtain ⟨v, h, rfl⟩ := h
  obtain ⟨st', hst'⟩ := segmentationSimR_stats h
  rw [hw] at hst'
  obtain ⟨R, sa', sb', st, hB⟩ := beside_of_rounded ρ hst'
  have hs' := hB.strings
  rw [toBStrings_denotes ha hb, Except.ok.injEq, Prod.mk.injEq] at hs'
  obtain ⟨rfl, rfl⟩ := hs'
  have hty : identifyTypes sa sb = types := by
    ext u; rw [← ht u, mem_identifyTypes]
  have hpbs := hB.pbs_eq
  have hle := (edits_pbs (rt := rt) hB.len hs kw.nT).2
  rw [← bed_edits (le_of_eq hB.len) hB.edits] at hle
  have hsz : sb.length * (identifyTypes sa sb).card * (identifyTypes sa sb).card ≤ limit := by
    rw [hty, ← hB.len, mul_assoc, ← pow_two]; exact hsize
  have hround := hB.rounded
  rw [← hw] at hround
  rw [segmentationSimR_eq hround rfl (by rw [hpbs.1]; exact_mod_cast hpbs.2)] at h
  simp only at h
  split at h
  · cases h
  · simp only [Except.ok.injEq, MetricOut.num.injEq, hpbs.1, Int.cast_natCast] at h
    subst h
    obtain ⟨c0, c1⟩ := roundedCost_bounds hr hB.script (by omega)
    exact roundedRatio_range hr _ hpbs.2 hsz c0 (le_trans c1 (by exact_mod_cast hle))

/-- C68 in the default context, for documents with fewer than `10 ^ 28` places for boundaries. -/
theorem C68_default_context (rt : Runtime) (kw : SimKw) (hw : kw.weight = .defaultR .cpython)
    (a b : Seg) (sa sb : BString) (ha : Denotes kw.boundaryFormat a sa)
    (hb : Denotes kw.boundaryFormat b sb) (hs : SharedTypes rt sa sb) (types : Finset ℤ)
    (ht : ∀ u, UsesType sa sb u ↔ u ∈ types) (hsize : sa.length * types.card ^ 2 ≤ 10 ^ 28) :
    (∀ x, Returns (boundarySimilarityR .cpython rt kw a b) x → 0 ≤ x ∧ x ≤ 1) ∧
    ∀ x, Returns (segmentationSimilarityR .cpython rt kw a b) x → 0 ≤ x ∧ x ≤ 1 := by
  refine ⟨fun x hx => ?_, C68_segmentation _ _ cpython_faithful rt kw hw a b sa sb ha hb hs types ht
    hsize⟩
  refine C68_boundary _ _ cpython_faithful rt kw hw a b sa sb ha hb ?_ x hx
  intro e he
  obtain ⟨v, hx, _⟩ := hx
  obtain ⟨st', hst'⟩ := boundarySimR_stats hx
  rw [hw] at hst'
  obtain ⟨R, sa', sb', st, hB⟩ := beside_of_rounded _ hst'
  have hs' := hB.strings
  rw [toBStrings_denotes ha hb, Except.ok.injEq, Prod.mk.injEq] at hs'
  obtain ⟨rfl, rfl⟩ := hs'
  have hle := (edits_pbs (rt := rt) hB.len hs kw.nT).1
  rw [← bed_edits (le_of_eq hB.len) he] at hle
  have hty : identifyTypes sa sb = types := by
    ext u; rw [← ht u, mem_identifyTypes]
  rw [hty, ← hB.len, mul_assoc, ← pow_two] at hle
  exact le_trans hle hsize

/-- The exact value `31 / 60` has no finite decimal representation. -/
example : Returns (boundarySimilarityR .cpython .ascending
      { kwSets with weight := .defaultR .cpython } (.sets exA) (.sets exB))
      (5166666666666666666666666667 / 10 ^ 28) ∧
    Returns (boundarySimilarity .ascending kwSets (.sets exA) (.sets exB)) (31 / 60) :=
  ⟨⟨.dec (5166666666666666666666666667 / 10 ^ 28), by decide +kernel, rfl⟩,
    ⟨.dec (31 / 60), by decide +kernel, rfl⟩⟩

/-! ## Accuracy -/

/-- C70: the rounded boundary similarity is within six rounding errors of the exact value, and the
same calls raise the same errors. -/
theorem C70_boundary (ρ : Rounding) (eps : ℚ) (he : 0 ≤ eps) (hacc : Accurate ρ.dec eps)
    (rt : Runtime) (kw : SimKw) (a b : Seg) :
    (∀ x, Returns (boundarySimilarity rt { kw with weight := .default } a b) x →
      ∃ x', Returns (boundarySimilarityR ρ rt { kw with weight := .defaultR ρ } a b) x' ∧
        |x' - x| ≤ (1 + eps) ^ (if kw.oneMinus then 6 else 5) - 1) ∧
    ∀ err, boundarySimilarity rt { kw with weight := .default } a b = .error err ↔
      boundarySimilarityR ρ rt { kw with weight := .defaultR ρ } a b = .error err := by
  constructor
  · rintro x ⟨v, h, rfl⟩
    obtain ⟨st, hst⟩ := boundarySim_stats h
    obtain ⟨R, sa, sb, hB⟩ := beside_of_exact ρ hst
    have hex := hB.exact
    rw [← boundaryStatisticsR_exact] at hex
    rw [← boundarySimilarityR_exact, boundarySimR_eq (kw := { kw with weight := .default })
      hex hB.count hB.den_pos] at h
    simp only at h
    split at h
    · cases h
    · rename_i hrp
      simp only [Except.ok.injEq, MetricOut.num.injEq] at h
      subst h
      refine ⟨roundedRatio ρ.dec kw.oneMinus ((editCount st.edits + st.matches'.length : ℕ) : ℚ)
        (roundedCost ρ.dec kw.nT R st.edits), ⟨.dec _, ?_, rfl⟩, ?_⟩
      · rw [boundarySimR_eq (kw := { kw with weight := .defaultR ρ }) hB.rounded rfl hB.den_pos]
        simp only [hrp]
        rfl
      · obtain ⟨_, _, c, _, _, _, _, hc, c0, c1, _⟩ := default_facts hst
        rw [hB.count] at hc
        simp only [PyNum.dec.injEq] at hc
        rw [← hc] at c0 c1
        exact roundedRatio_accurate hacc he kw.oneMinus (by exact_mod_cast hB.den_pos) c0
          (le_trans c1 (by push_cast; simp)) (roundedCost_accurate hacc he hB.script)
  · intro err
    rw [← boundarySimilarityR_exact, ← weights_exact]
    exact ⟨boundarySimR_error _ _, boundarySimR_error _ _⟩

/-- C70: the same for segmentation similarity. -/
theorem C70_segmentation (ρ : Rounding) (eps : ℚ) (he : 0 ≤ eps) (hacc : Accurate ρ.dec eps)
    (rt : Runtime) (kw : SimKw) (a b : Seg) (sa sb : BString)
    (ha : Denotes kw.boundaryFormat a sa) (hb : Denotes kw.boundaryFormat b sb)
    (hs : SharedTypes rt sa sb) :
    (∀ x, Returns (segmentationSimilarity rt { kw with weight := .default } a b) x →
      ∃ x', Returns (segmentationSimilarityR ρ rt { kw with weight := .defaultR ρ } a b) x' ∧
        |x' - x| ≤ (1 + eps) ^ (if kw.oneMinus then 6 else 5) - 1) ∧
    ∀ err, segmentationSimilarity rt { kw with weight := .default } a b = .error err ↔
      segmentationSimilarityR ρ rt { kw with weight := .defaultR ρ } a b = .error err := by
  constructor
  · rintro x ⟨v, h, rfl⟩
    obtain ⟨st, hst⟩ := segmentationSim_stats h
    obtain ⟨R, sa', sb', hB⟩ := beside_of_exact ρ hst
    have hs' := hB.strings
    simp only at hs'
    rw [toBStrings_denotes ha hb, Except.ok.injEq, Prod.mk.injEq] at hs'
    obtain ⟨rfl, rfl⟩ := hs'
    have hpbs := hB.pbs_eq
    have hpos : 0 < st.pbs * (st.boundaryTypes.card : ℤ) := by
      rw [hpbs.1]; exact_mod_cast hpbs.2
    have hle := (edits_pbs (rt := rt) hB.len hs kw.nT).2
    rw [← bed_edits (le_of_eq hB.len) hB.edits] at hle
    have hex := hB.exact
    rw [← boundaryStatisticsR_exact] at hex
    rw [← segmentationSimilarityR_exact, segmentationSimR_eq
      (kw := { kw with weight := .default }) hex hB.count hpos] at h
    simp only at h
    split at h
    · cases h
    · rename_i hrp
      simp only [Except.ok.injEq, MetricOut.num.injEq] at h
      subst h
      refine ⟨roundedRatio ρ.dec kw.oneMinus ((st.pbs * (st.boundaryTypes.card : ℤ) : ℤ) : ℚ)
        (roundedCost ρ.dec kw.nT R st.edits), ⟨.dec _, ?_, rfl⟩, ?_⟩
      · rw [segmentationSimR_eq (kw := { kw with weight := .defaultR ρ }) hB.rounded rfl hpos]
        simp only [hrp]
        rfl
      · obtain ⟨_, _, c, _, _, _, _, hc, c0, c1, _⟩ := default_facts hst
        rw [hB.count] at hc
        simp only [PyNum.dec.injEq] at hc
        rw [← hc] at c0 c1
        refine roundedRatio_accurate hacc he kw.oneMinus (by exact_mod_cast hpos) c0
          (le_trans c1 ?_) (roundedCost_accurate hacc he hB.script)
        rw [hpbs.1]
        exact_mod_cast hle
  · intro err
    rw [← segmentationSimilarityR_exact, ← weights_exact]
    exact ⟨segmentationSimR_error _ _, segmentationSimR_error _ _⟩

/-- C70 in the default context: at most `4 * 10 ^ -27` off. -/
theorem C70_default_context (rt : Runtime) (kw : SimKw) (a b : Seg) (x : ℚ) :
    (Returns (boundarySimilarity rt { kw with weight := .default } a b) x →
      ∃ x', Returns (boundarySimilarityR .cpython rt { kw with weight := .defaultR .cpython } a b)
        x' ∧ |x' - x| ≤ 4 / 10 ^ 27) ∧
    ∀ sa sb, Denotes kw.boundaryFormat a sa → Denotes kw.boundaryFormat b sb →
      SharedTypes rt sa sb →
      Returns (segmentationSimilarity rt { kw with weight := .default } a b) x →
      ∃ x', Returns (segmentationSimilarityR .cpython rt { kw with weight := .defaultR .cpython }
        a b) x' ∧ |x' - x| ≤ 4 / 10 ^ 27 := by
  have key : ∀ om : Bool, ((1 : ℚ) + 1 / (2 * 10 ^ 27)) ^ (if om then 6 else 5) - 1 ≤
      4 / 10 ^ 27 := by
    intro om; cases om <;> norm_num
  constructor
  · intro hx
    obtain ⟨x', h1, h2⟩ := (C70_boundary .cpython _ (by norm_num) cpython_accurate rt kw a b).1 x hx
    exact ⟨x', h1, le_trans h2 (key _)⟩
  · intro sa sb ha hb hs hx
    obtain ⟨x', h1, h2⟩ := (C70_segmentation .cpython _ (by norm_num) cpython_accurate rt kw a b
      sa sb ha hb hs).1 x hx
    exact ⟨x', h1, le_trans h2 (key _)⟩

/-- C70: the ends of the scale survive rounding: as long as one step of the scale is larger than the
rounding error, the rounded value is 1 or 0 exactly when the exact value is. -/
theorem C70_ends (ρ : Rounding) (limit : ℕ) (hr : Faithful ρ.dec limit) (eps : ℚ) (he : 0 ≤ eps)
    (hacc : Accurate ρ.dec eps) (rt : Runtime) (kw : SimKw) (ho : kw.oneMinus = false) (a b : Seg)
    (sa sb : BString) (ha : Denotes kw.boundaryFormat a sa) (hb : Denotes kw.boundaryFormat b sb)
    (M : ℤ) (hT : kw.nT ≤ M) (hM : ∀ mx mn, Extremes sa sb mx mn → mx - mn + 1 ≤ M)
    (hsize : ∀ e, boundaryEditDistance rt sa sb kw.nT = .ok e →
      editCount e + matchCount sa sb ≤ limit ∧
      ((1 + eps) ^ 5 - 1) * ((editCount e + matchCount sa sb : ℕ) * M) < 1)
    (x x' : ℚ) (hx : Returns (boundarySimilarity rt { kw with weight := .default } a b) x)
    (hx' : Returns (boundarySimilarityR ρ rt { kw with weight := .defaultR ρ } a b) x') :
    (x' = 1 ↔ x = 1) ∧ (x' = 0 ↔ x = 0) := by
  obtain ⟨v, h, rfl⟩ := hx
  obtain ⟨v', h', rfl⟩ := hx'
  obtain ⟨st, hst⟩ := boundarySim_stats h
  obtain ⟨R, sa', sb', hB⟩ := beside_of_exact ρ hst
  have hs' := hB.strings
  simp only at hs'
  rw [toBStrings_denotes ha hb, Except.ok.injEq, Prod.mk.injEq] at hs'
  obtain ⟨rfl, rfl⟩ := hs'
  obtain ⟨mx, mn, hext, hR⟩ := hB.extremes
  obtain ⟨hs1, hs2⟩ := hsize _ hB.edits
  rw [← hB.matches_] at hs1 hs2
  have hex := hB.exact
  rw [← boundaryStatisticsR_exact] at hex
  rw [← boundarySimilarityR_exact, boundarySimR_eq (kw := { kw with weight := .default })
    hex hB.count hB.den_pos] at h
  rw [boundarySimR_eq (kw := { kw with weight := .defaultR ρ }) hB.rounded rfl hB.den_pos] at h'
  simp only [ho] at h h'
  split at h
  · cases h
  · rename_i hrp
    simp only [hrp, Bool.false_eq_true, if_false, Except.ok.injEq, MetricOut.num.injEq] at h h'
    subst h h'
    exact roundedRatio_ends hr hacc he hB.script (by rw [hR]; exact hM mx mn hext) hT
      hB.den_pos hs1 (by omega) hs2

/-- C70 in the default context: up to `10 ^ 26` steps, a reported similarity of 1 means the same
boundaries, and 0 means that nothing matches and nothing is near. -/
theorem C70_ends_default_context (rt : Runtime) (kw : SimKw) (ho : kw.oneMinus = false) (a b : Seg)
    (sa sb : BString) (ha : Denotes kw.boundaryFormat a sa) (hb : Denotes kw.boundaryFormat b sb)
    (M : ℤ) (hT : kw.nT ≤ M) (hM : ∀ mx mn, Extremes sa sb mx mn → mx - mn + 1 ≤ M)
    (hsize : ∀ e, boundaryEditDistance rt sa sb kw.nT = .ok e →
      ((editCount e + matchCount sa sb : ℕ) : ℤ) * M ≤ 10 ^ 26)
    (x' : ℚ) (hx' : Returns (boundarySimilarityR .cpython rt
      { kw with weight := .defaultR .cpython } a b) x') :
    (x' = 1 ↔ sa = sb) ∧
    (x' = 0 ↔ NeverTogether sa sb ∧ ¬ ∃ t, Genuine sa sb kw.nT t) := by
  have hx : ∃ x, Returns (boundarySimilarity rt { kw with weight := .default } a b) x := by
    obtain ⟨v', h', _⟩ := hx'
    obtain ⟨st', hst'⟩ := boundarySimR_stats h'
    obtain ⟨R, sa', sb', st, hB⟩ := beside_of_rounded _ hst'
    have hex := hB.exact
    rw [← boundaryStatisticsR_exact] at hex
    rw [boundarySimR_eq (kw := { kw with weight := .defaultR .cpython }) hB.rounded rfl
      hB.den_pos] at h'
    simp only at h'
    split at h'
    · cases h'
    · rename_i hrp
      refine ⟨roundedRatio id kw.oneMinus ((editCount st.edits + st.matches'.length : ℕ) : ℚ)
        (roundedCost id kw.nT R st.edits), ⟨.dec _, ?_, rfl⟩⟩
      rw [← boundarySimilarityR_exact, boundarySimR_eq (kw := { kw with weight := .default })
        hex hB.count hB.den_pos]
      simp only [hrp]
      rfl
  obtain ⟨x, hx⟩ := hx
  have hM1 : 1 ≤ M := by
    obtain ⟨v, h, _⟩ := hx
    obtain ⟨st, hst⟩ := boundarySim_stats h
    obtain ⟨R, sa', sb', hB⟩ := beside_of_exact .cpython hst
    have hs' := hB.strings
    simp only at hs'
    rw [toBStrings_denotes ha hb, Except.ok.injEq, Prod.mk.injEq] at hs'
    obtain ⟨rfl, rfl⟩ := hs'
    obtain ⟨mx, mn, hext, hR⟩ := hB.extremes
    have := hM mx mn hext
    have := hB.script.range_pos
    omega
  obtain ⟨e1, e2⟩ := C70_ends .cpython _ cpython_faithful _ (by norm_num) cpython_accurate rt kw ho
    a b sa sb ha hb M hT hM (by
      intro e hee
      have := hsize e hee
      constructor
      · have h1 : ((editCount e + matchCount sa sb : ℕ) : ℤ) ≤
            ((editCount e + matchCount sa sb : ℕ) : ℤ) * M :=
          le_mul_of_one_le_right (by positivity) hM1
        have h2 : ((editCount e + matchCount sa sb : ℕ) : ℤ) ≤ 10 ^ 26 := le_trans h1 this
        have h3 : editCount e + matchCount sa sb ≤ 10 ^ 26 := by exact_mod_cast h2
        exact le_trans h3 (by norm_num)
      · have h1 : (((editCount e + matchCount sa sb : ℕ) : ℚ) * M) ≤ 10 ^ 26 := by
          exact_mod_cast this
        have h2 : ((1 : ℚ) + 1 / (2 * 10 ^ 27)) ^ 5 - 1 ≤ 4 / 10 ^ 27 := by norm_num
        have h3 : (0 : ℚ) ≤ ((editCount e + matchCount sa sb : ℕ) : ℚ) * M := by
          have : (0 : ℚ) ≤ M := by exact_mod_cast (by omega : (0 : ℤ) ≤ M)
          positivity
        calc _ ≤ (4 / 10 ^ 27 : ℚ) * (((editCount e + matchCount sa sb : ℕ) : ℚ) * M) :=
              mul_le_mul_of_nonneg_right h2 h3
          _ ≤ 4 / 10 ^ 27 * 10 ^ 26 := mul_le_mul_of_nonneg_left h1 (by norm_num)
          _ < 1 := by norm_num) x x' hx hx'
  rw [e1, e2]
  exact ⟨C18_one_iff rt { kw with weight := .default } rfl ho a b sa sb ha hb x hx,
    C18_zero_iff rt { kw with weight := .default } rfl ho a b sa sb ha hb x hx⟩

/-! ## The window metrics -/

theorem exact_faithful (limit : ℕ) : Faithful Rounding.exact.dec limit where
  mono := fun _ _ h => h
  idem := fun _ => rfl
  int := fun _ _ => rfl

/-- C69: Pk is the correctly rounded exact value, `one_minus` rounds once more, parts are exact, and
the same errors are raised. -/
theorem C69_pk (ρ : Rounding) (limit : ℕ) (hl : 1 ≤ limit) (hr : Faithful ρ.dec limit) (kw : WinKw)
    (h r : Seg) :
    (∀ x, Returns (pk { kw with oneMinus := false } h r) x →
      Returns (pkR ρ { kw with oneMinus := false } h r) (ρ.dec x) ∧
      Returns (pkR ρ { kw with oneMinus := true } h r) (ρ.dec (1 - ρ.dec x)) ∧
      0 ≤ ρ.dec x ∧ ρ.dec x ≤ 1) ∧
    (∀ n d, pk kw h r = .ok (.parts n d) ↔ pkR ρ kw h r = .ok (.parts n d)) ∧
    ∀ err, pk kw h r = .error err ↔ pkR ρ kw h r = .error err := by
  rw [← pkR_exact]
  rcases pkR_cases kw h r with ⟨e, he⟩ | ⟨s, m, s0, sm, heq⟩
  · have h1 := fun ρ => he ρ kw.oneMinus kw.returnParts
    have h2 := fun ρ om => he ρ om kw.returnParts
    refine ⟨?_, ?_, ?_⟩
    · rintro x ⟨v, hv, _⟩
      rw [h2] at hv; cases hv
    · intro n d; rw [h1, h1]
    · intro err; rw [h1, h1]
  · have h1 := fun ρ => heq ρ kw.oneMinus kw.returnParts
    have h2 := fun ρ om => heq ρ om kw.returnParts
    refine ⟨?_, ?_, ?_⟩
    · rintro x ⟨v, hv, rfl⟩
      rw [h2] at hv
      split at hv
      · cases hv
      · rename_i hrp
        split at hv
        · rename_i hm
          simp only [Except.ok.injEq, MetricOut.num.injEq, Bool.false_eq_true, if_false] at hv
          subst hv
          have hm' : (0 : ℚ) < m := by exact_mod_cast hm
          have hs' : (s : ℚ) ≤ m := by exact_mod_cast sm
          refine ⟨⟨_, by rw [h2, if_neg hrp, if_pos hm], rfl⟩,
            ⟨_, by rw [h2, if_neg hrp, if_pos hm], rfl⟩, ?_, ?_⟩
          · exact hr.nonneg (div_nonneg (by exact_mod_cast s0) hm'.le)
          · have := hr.le_nat hl (q := (s : ℚ) / m) (by rw [Nat.cast_one]; exact (div_le_one hm').2 hs')
            rw [Nat.cast_one] at this
            exact this
        · rename_i hm
          simp only [Except.ok.injEq, MetricOut.num.injEq, Bool.false_eq_true, if_false] at hv
          subst hv
          have hz : (PyNum.int 0).val = 0 := by simp [PyNum.val]
          rw [hz, hr.zero]
          refine ⟨⟨_, by rw [h2, if_neg hrp, if_neg hm], ?_⟩,
            ⟨_, by rw [h2, if_neg hrp, if_neg hm], ?_⟩, le_refl _, zero_le_one⟩
          · simp [PyNum.val]
          · simp [PyNum.val]
    · intro n d
      rw [h1, h1]
      split
      · exact Iff.rfl
      · split <;> simp
    · intro err
      rw [h1, h1]
      split
      · simp
      · split <;> simp

/-- C69: WindowDiff is the correctly rounded exact value; rounding never makes its assertion fail. -/
theorem C69_window_diff (ρ : Rounding) (limit : ℕ) (hl : 1 ≤ limit) (hr : Faithful ρ.dec limit)
    (kw : WinKw) (h r : Seg) :
    (∀ x, Returns (windowDiff { kw with oneMinus := false } h r) x →
      Returns (windowDiffR ρ { kw with oneMinus := false } h r) (ρ.dec x) ∧
      Returns (windowDiffR ρ { kw with oneMinus := true } h r) (ρ.dec (1 - ρ.dec x)) ∧
      0 ≤ ρ.dec x ∧ ρ.dec x ≤ 1) ∧
    (∀ n d, windowDiff kw h r = .ok (.parts n d) ↔ windowDiffR ρ kw h r = .ok (.parts n d)) ∧
    ∀ err, windowDiff kw h r = .error err ↔ windowDiffR ρ kw h r = .error err := by
  rw [← windowDiffR_exact]
  rcases wdR_cases kw h r with ⟨e, he⟩ | ⟨s, d, d0, q0, q1, heq⟩
  · have h1 := fun ρ => he ρ kw.oneMinus kw.returnParts
    have h2 := fun ρ om => he ρ om kw.returnParts
    refine ⟨?_, ?_, ?_⟩
    · rintro x ⟨v, hv, _⟩
      rw [h2] at hv; cases hv
    · intro n d; rw [h1, h1]
    · intro err; rw [h1, h1]
  · have hle : ρ.dec ((s : ℚ) / d) ≤ 1 := by
      have := hr.le_nat hl (q := (s : ℚ) / d) (by rw [Nat.cast_one]; exact q1)
      simpa using this
    have h1 := fun ρ => heq ρ kw.oneMinus kw.returnParts
    have h2 := fun ρ om => heq ρ om kw.returnParts
    refine ⟨?_, ?_, ?_⟩
    · rintro x ⟨v, hv, rfl⟩
      rw [h2 _ _ q1, if_pos rfl] at hv
      split at hv
      · cases hv
      · rename_i hrp
        simp only [Except.ok.injEq, MetricOut.num.injEq] at hv
        subst hv
        refine ⟨⟨_, by rw [h2 _ _ hle, if_pos rfl, if_neg hrp], rfl⟩,
          ⟨_, by rw [h2 _ _ hle, if_neg (by simp)], rfl⟩, hr.nonneg q0, hle⟩
    · intro n d'
      rw [h1 _ q1, h1 _ hle]
      split
      · split <;> simp
      · simp
    · intro err
      rw [h1 _ q1, h1 _ hle]
      split
      · split <;> simp
      · simp

/-- One third, and its complement. -/
example : windowDiffR .cpython { windowSize := some 2 } (massSeg [2, 3]) (massSeg [1, 1, 3]) =
      .ok (.num (.dec (3333333333333333333333333333 / 10 ^ 28))) ∧
    windowDiffR .cpython { windowSize := some 2, oneMinus := true } (massSeg [2, 3])
      (massSeg [1, 1, 3]) = .ok (.num (.dec (6666666666666666666666666667 / 10 ^ 28))) ∧
    pkR .cpython { windowSize := some 2 } (massSeg [5]) (massSeg [1, 4]) =
      .ok (.num (.dec (3333333333333333333333333333 / 10 ^ 28))) := by decide +kernel

/-- C69: with the unscaled weights everything before the division is an exact int, so the float is
the correctly rounded exact value. -/
theorem C69_unscaled (ρ : Rounding) (rt : Runtime) (kw : SimKw) (hw : kw.weight = .unscaled)
    (ho : kw.oneMinus = false) (a b : Seg) (x : ℚ) :
    (Returns (boundarySimilarity rt kw a b) x →
      Returns (boundarySimilarityR ρ rt kw a b) (ρ.flt x)) ∧
    (Returns (segmentationSimilarity rt kw a b) x →
      Returns (segmentationSimilarityR ρ rt kw a b) (ρ.flt x)) := by
  have hs : boundaryStatisticsR ρ rt kw.boundaryFormat kw.nT kw.weight a b =
      boundaryStatistics rt kw.boundaryFormat kw.nT kw.weight a b := by
    rw [hw, ← boundaryStatisticsR_exact]
    rfl
  constructor
  · rintro ⟨v, h, rfl⟩
    obtain ⟨st, hst⟩ := boundarySim_stats h
    have hpos := stats_den_pos hst
    obtain ⟨c, hc⟩ := unscaled_int (by rw [hw] at hst; exact hst)
    unfold boundarySimilarity at h
    unfold boundarySimilarityR
    rw [hst] at h
    rw [hs, hst]
    simp only [hc, PyNum.sub, PyNum.subR, PyNum.rnd, ho] at h ⊢
    split at h
    · cases h
    · rename_i hrp
      rw [if_neg hrp]
      simp only [(unscaled_ratio ρ _ hpos).1, (unscaled_ratio ρ _ hpos).2, applyOneMinus,
        applyOneMinusR, Bool.false_eq_true, if_false, Except.ok.injEq, MetricOut.num.injEq] at h ⊢
      subst h
      exact ⟨_, rfl, rfl⟩
  · rintro ⟨v, h, rfl⟩
    obtain ⟨st, hst⟩ := segmentationSim_stats h
    have hpos := stats_pbs_pos hst
    obtain ⟨c, hc⟩ := unscaled_int (by rw [hw] at hst; exact hst)
    unfold segmentationSimilarity at h
    unfold segmentationSimilarityR
    rw [hst] at h
    rw [hs, hst]
    simp only [hc, PyNum.sub, PyNum.subR, PyNum.rnd, ho] at h ⊢
    split at h
    · cases h
    · rename_i hrp
      rw [if_neg hrp]
      simp only [(unscaled_ratio ρ _ hpos).1, (unscaled_ratio ρ _ hpos).2, applyOneMinus,
        applyOneMinusR, Bool.false_eq_true, if_false, Except.ok.injEq, MetricOut.num.injEq] at h ⊢
      subst h
      exact ⟨_, rfl, rfl⟩

/-- One third in binary64. -/
example : boundarySimilarityR .cpython .ascending { kwSets with weight := .unscaled } (.sets exA)
    (.sets exB) = .ok (.num (.flt (6004799503160661 / 2 ^ 54))) := by decide +kernel

/-! ## Symmetry and set orders -/

/-- C71: symmetry holds to the last digit, whatever the orders sets are visited in. -/
theorem C71_symmetric (ρ : Rounding) (rt rt' : Runtime) (kw : SimKw) (hw : SuppliedR ρ kw.weight)
    (hr : kw.returnParts = false) (a b : Seg) (sa sb : BString)
    (ha : Denotes kw.boundaryFormat a sa) (hb : Denotes kw.boundaryFormat b sb)
    (hs : SharedTypes rt sa sb) (hs' : SharedTypes rt' sa sb) :
    boundarySimilarityR ρ rt kw a b = boundarySimilarityR ρ rt' kw b a ∧
    segmentationSimilarityR ρ rt kw a b = segmentationSimilarityR ρ rt' kw b a := by
  have key : SameStats (boundaryStatisticsR ρ rt kw.boundaryFormat kw.nT kw.weight a b)
      (boundaryStatisticsR ρ rt' kw.boundaryFormat kw.nT kw.weight b a) := by
    rw [boundaryStatisticsR_denotes ha hb, boundaryStatisticsR_denotes hb ha]
    exact statsR_swap hw hs hs'
  exact ⟨boundarySimR_same hr key, segmentationSimR_same key⟩

/-- C71: the value does not depend on hash orders, to the last digit. -/
theorem C71_order_independent (ρ : Rounding) (rt rt' : Runtime) (kw : SimKw)
    (hw : SuppliedR ρ kw.weight) (hr : kw.returnParts = false) (a b : Seg) (sa sb : BString)
    (ha : Denotes kw.boundaryFormat a sa) (hb : Denotes kw.boundaryFormat b sb)
    (hs : SharedTypes rt sa sb) (hs' : SharedTypes rt' sa sb) :
    boundarySimilarityR ρ rt kw a b = boundarySimilarityR ρ rt' kw a b ∧
    segmentationSimilarityR ρ rt kw a b = segmentationSimilarityR ρ rt' kw a b := by
  obtain ⟨h1, h2⟩ := C71_symmetric ρ rt rt' kw hw hr a b sa sb ha hb hs hs'
  obtain ⟨h3, h4⟩ := C71_symmetric ρ rt' rt' kw hw hr b a sb sa hb ha (sharedTypes_comm hs')
    (sharedTypes_comm hs')
  exact ⟨h1.trans h3, h2.trans h4⟩

/-- C71: nor on the format, to the last digit. -/
theorem C71_formats (ρ : Rounding) (rt : Runtime) (kw : SimKw) (fmt fmt' : BoundaryFormat)
    (a b a' b' : Seg) (sa sb : BString) (ha : Denotes fmt a sa) (hb : Denotes fmt b sb)
    (ha' : Denotes fmt' a' sa) (hb' : Denotes fmt' b' sb) :
    boundarySimilarityR ρ rt { kw with boundaryFormat := fmt } a b =
      boundarySimilarityR ρ rt { kw with boundaryFormat := fmt' } a' b' ∧
    segmentationSimilarityR ρ rt { kw with boundaryFormat := fmt } a b =
      segmentationSimilarityR ρ rt { kw with boundaryFormat := fmt' } a' b' := by
  have h : boundaryStatisticsR ρ rt fmt kw.nT kw.weight a b =
      boundaryStatisticsR ρ rt fmt' kw.nT kw.weight a' b' := by
    rw [boundaryStatisticsR_denotes ha hb, boundaryStatisticsR_denotes ha' hb']
  constructor
  · unfold boundarySimilarityR
    simp only [h]
  · unfold segmentationSimilarityR
    simp only [h]

example : SuppliedR .cpython (.defaultR .cpython) ∧ SuppliedR .cpython .unscaled ∧
    Returns (boundarySimilarityR .cpython .ascending
      { kwSets with weight := .defaultR .cpython } (.sets exB) (.sets exA))
      (5166666666666666666666666667 / 10 ^ 28) :=
  ⟨⟨rfl, Or.inr rfl, Or.inr rfl⟩, ⟨rfl, Or.inl rfl, Or.inl rfl⟩,
    ⟨.dec (5166666666666666666666666667 / 10 ^ 28), by decide +kernel, rfl⟩⟩

/-- C71 refuted for `one_minus`: the value and its complement need not add up to 1. -/
theorem C71_complement_inexact :
    ∃ x y : ℚ, Returns (boundarySimilarityR .cpython .ascending { weight := .defaultR .cpython }
      (massSeg [1, 1, 1, 1, 1, 1, 1, 1, 1, 1, 1, 1, 1]) (massSeg [1, 12])) x ∧
    Returns (boundarySimilarityR .cpython .ascending
      { weight := .defaultR .cpython, oneMinus := true }
      (massSeg [1, 1, 1, 1, 1, 1, 1, 1, 1, 1, 1, 1, 1]) (massSeg [1, 12])) y ∧ x + y ≠ 1 :=
  ⟨8333333333333333333333333333 / 10 ^ 29, 9166666666666666666666666667 / 10 ^ 28,
    ⟨.dec (8333333333333333333333333333 / 10 ^ 29), by decide +kernel, rfl⟩,
    ⟨.dec (9166666666666666666666666667 / 10 ^ 28), by decide +kernel, rfl⟩, by norm_num⟩

end SegEval.Props
