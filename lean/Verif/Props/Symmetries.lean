import Verif.Lemmas.Reversal
import Verif.Props.WindowMetrics

/-!
# C66, C67: distances and documents read backwards
-/

namespace SegEval.Props

open SegEval Spec

/-! ## C66: the triangle inequality -/

theorem pkErrors_triangle (pa pb pc : List Bool) (hl : pb.length = pc.length) (k : ℕ) :
    (pkErrors pa pc k).card ≤ (pkErrors pa pb k).card + (pkErrors pb pc k).card := by
  refine (Finset.card_le_card ?_).trans (Finset.card_union_le _ _)
  intro i hi
  simp only [pkErrors, Finset.mem_union, Finset.mem_filter, hl, PkError] at hi ⊢
  tauto

theorem wdErrors_triangle (pa pb pc : List Bool) (hl : pb.length = pc.length) (k : ℕ) :
    (wdErrors pa pc k).card ≤ (wdErrors pa pb k).card + (wdErrors pb pc k).card := by
  refine (Finset.card_le_card ?_).trans (Finset.card_union_le _ _)
  intro i hi
  simp only [wdErrors, Finset.mem_union, Finset.mem_filter, hl, WdError] at hi ⊢
  obtain ⟨h1, h2⟩ := hi
  by_cases h : between pa i k = between pb i k
  · exact .inr ⟨h1, h ▸ h2⟩
  · exact .inl ⟨h1, h⟩

theorem add_div_le {x y z n : ℕ} (h : x ≤ y + z) : (x : ℚ) / n ≤ (y : ℚ) / n + (z : ℚ) / n := by
  rw [← add_div]
  exact div_le_div_of_nonneg_right (by exact_mod_cast h) (Nat.cast_nonneg n)

/-- C66: for a fixed window size Pk satisfies the triangle inequality. -/
theorem C66_pk_triangle (kw : WinKw) (hf : WindowFormat kw.boundaryFormat) (a b c : Seg)
    (pa pb pc : List Bool) (ha : Means kw.boundaryFormat a pa) (hb : Means kw.boundaryFormat b pb)
    (hc : Means kw.boundaryFormat c pc) (ua : Unrepeated kw.boundaryFormat a)
    (ub : Unrepeated kw.boundaryFormat b) (uc : Unrepeated kw.boundaryFormat c)
    (hab : pa.length = pb.length) (hbc : pb.length = pc.length) (k : ℕ)
    (hk : kw.windowSize = some (k : ℤ)) (hrp : kw.returnParts = false) (hom : kw.oneMinus = false)
    (x y z : ℚ) (hx : Returns (pk kw a b) x) (hy : Returns (pk kw b c) y)
    (hz : Returns (pk kw a c) z) : z ≤ x + y := by
  have hw : ∀ p, UsesWindow kw p k := fun p => by simp only [UsesWindow, hk]
  rw [returns_unique hx (C60_pk_formula kw hf a b pa pb ha hb ua ub hab k (hw _) hrp hom),
    returns_unique hy (C60_pk_formula kw hf b c pb pc hb hc ub uc hbc k (hw _) hrp hom),
    returns_unique hz (C60_pk_formula kw hf a c pa pc ha hc ua uc (hab.trans hbc) k (hw _) hrp hom),
    hbc]
  exact add_div_le (pkErrors_triangle pa pb pc hbc k)

/-- C66: for a fixed window size WindowDiff satisfies the triangle inequality. -/
theorem C66_window_diff_triangle (kw : WinKw) (hf : WindowFormat kw.boundaryFormat) (a b c : Seg)
    (pa pb pc : List Bool) (ha : Means kw.boundaryFormat a pa) (hb : Means kw.boundaryFormat b pb)
    (hc : Means kw.boundaryFormat c pc) (na : Neighbours kw.boundaryFormat a)
    (nb : Neighbours kw.boundaryFormat b) (nc : Neighbours kw.boundaryFormat c)
    (hab : pa.length = pb.length) (hbc : pb.length = pc.length) (k : ℕ)
    (hk : kw.windowSize = some (k : ℤ)) (hn : k < pc.length + 1) (hfix : kw.lamprierFix = false)
    (hrp : kw.returnParts = false) (hom : kw.oneMinus = false)
    (x y z : ℚ) (hx : Returns (windowDiff kw a b) x) (hy : Returns (windowDiff kw b c) y)
    (hz : Returns (windowDiff kw a c) z) : z ≤ x + y := by
  have hw : ∀ p, UsesWindow kw p k := fun p => by simp only [UsesWindow, hk]
  have h1 := ((C61_returns_iff kw hf a b pa pb ha hb na nb hab k (hw _) (by omega) hfix hrp hom x).1
    hx).2
  have h2 := ((C61_returns_iff kw hf b c pb pc hb hc nb nc hbc k (hw _) (by omega) hfix hrp hom y).1
    hy).2
  have h3 := ((C61_returns_iff kw hf a c pa pc ha hc na nc (hab.trans hbc) k (hw _) (by omega) hfix
    hrp hom z).1 hz).2
  rw [h1, h2, h3, hbc]
  exact add_div_le (wdErrors_triangle pa pb pc hbc k)

/-- C66: also with the fix; there WindowDiff is a metric, being 0 only for the same boundaries
(C31). -/
theorem C66_fixed_triangle (kw : WinKw) (hf : WindowFormat kw.boundaryFormat) (a b c : Seg)
    (pa pb pc : List Bool) (ha : Means kw.boundaryFormat a pa) (hb : Means kw.boundaryFormat b pb)
    (hc : Means kw.boundaryFormat c pc) (na : Neighbours kw.boundaryFormat a)
    (nb : Neighbours kw.boundaryFormat b) (nc : Neighbours kw.boundaryFormat c)
    (qa : Paddable kw.boundaryFormat a) (qb : Paddable kw.boundaryFormat b)
    (qc : Paddable kw.boundaryFormat c)
    (hab : pa.length = pb.length) (hbc : pb.length = pc.length) (k : ℕ)
    (hk : kw.windowSize = some (k : ℤ)) (hk1 : 1 ≤ k) (hfix : kw.lamprierFix = true)
    (hrp : kw.returnParts = false) (hom : kw.oneMinus = false)
    (x y z : ℚ) (hx : Returns (windowDiff kw a b) x) (hy : Returns (windowDiff kw b c) y)
    (hz : Returns (windowDiff kw a c) z) : z ≤ x + y := by
  have hw : ∀ p, UsesWindow kw p k := fun p => by simp only [UsesWindow, hk]
  have h1 := ((C62_returns_iff kw hf a b pa pb ha hb na nb qa qb hab k (hw _) hk1 hfix hrp hom x).1
    hx).2
  have h2 := ((C62_returns_iff kw hf b c pb pc hb hc nb nc qb qc hbc k (hw _) hk1 hfix hrp hom y).1
    hy).2
  have h3 := ((C62_returns_iff kw hf a c pa pc ha hc na nc qa qc (hab.trans hbc) k (hw _) hk1 hfix
    hrp hom z).1 hz).2
  rw [h1, h2, h3, hbc, ← add_div]
  refine div_le_div_of_nonneg_right ?_ (by positivity)
  have hl : (padded k pb).length = (padded k pc).length := by
    simp only [padded, List.length_append, hbc]
  exact_mod_cast wdErrors_triangle (padded k pa) (padded k pb) (padded k pc) hl k

example : Returns (windowDiff { windowSize := some 2 } (massSeg [2, 3]) (massSeg [3, 2])) (2 / 3) ∧
    Returns (windowDiff { windowSize := some 2 } (massSeg [3, 2]) (massSeg [4, 1])) (1 / 3) ∧
    Returns (windowDiff { windowSize := some 2 } (massSeg [2, 3]) (massSeg [4, 1])) 1 := by
  refine ⟨⟨.dec (2 / 3), by decide +kernel, rfl⟩, ⟨.dec (1 / 3), by decide +kernel, rfl⟩,
    ⟨.dec 1, by decide +kernel, rfl⟩⟩

/-- C66: not so for boundary similarity: of three segmentations of four units the outer two differ by
more than the sum of their differences from the middle one. -/
theorem C66_not_boundary_similarity :
    boundarySimilarity .ascending { oneMinus := true } (massSeg [2, 1, 1]) (massSeg [1, 2, 1]) =
      .ok (.num (.dec (1 / 4))) ∧
    boundarySimilarity .ascending { oneMinus := true } (massSeg [1, 2, 1]) (massSeg [1, 1, 2]) =
      .ok (.num (.dec (1 / 4))) ∧
    boundarySimilarity .ascending { oneMinus := true } (massSeg [2, 1, 1]) (massSeg [1, 1, 2]) =
      .ok (.num (.dec (2 / 3))) := by decide +kernel

/-! ## C67: reading backwards -/

/-- C67: Pk of the reversed segmentations is the same, for every window size including the default
one. -/
theorem C67_pk_reversed (kw kw' : WinKw) (hf : WindowFormat kw.boundaryFormat)
    (hf' : WindowFormat kw'.boundaryFormat) (h r h' r' : Seg) (ph pr : List Bool)
    (hh : Means kw.boundaryFormat h ph) (hr : Means kw.boundaryFormat r pr)
    (hh' : Means kw'.boundaryFormat h' ph.reverse) (hr' : Means kw'.boundaryFormat r' pr.reverse)
    (uh : Unrepeated kw.boundaryFormat h) (ur : Unrepeated kw.boundaryFormat r)
    (uh' : Unrepeated kw'.boundaryFormat h') (ur' : Unrepeated kw'.boundaryFormat r')
    (hl : ph.length = pr.length) (k : ℕ) (hk : UsesWindow kw pr k) (hk' : UsesWindow kw' pr k)
    (hrp : kw.returnParts = false) (hom : kw.oneMinus = false) (hrp' : kw'.returnParts = false)
    (hom' : kw'.oneMinus = false) (x : ℚ) :
    Returns (pk kw h r) x ↔ Returns (pk kw' h' r') x := by
  have h1 := C60_pk_formula kw hf h r ph pr hh hr uh ur hl k hk hrp hom
  have h2 := C60_pk_formula kw' hf' h' r' _ _ hh' hr' uh' ur' (by simp [hl]) k
    (usesWindow_reverse.2 hk') hrp' hom'
  rw [pkErrors_reverse ph pr hl, List.length_reverse] at h2
  exact ⟨fun hx => returns_unique hx h1 ▸ h2, fun hx => returns_unique hx h2 ▸ h1⟩

/-- C67: WindowDiff of the reversed segmentations is the same. -/
theorem C67_window_diff_reversed (kw kw' : WinKw) (hf : WindowFormat kw.boundaryFormat)
    (hf' : WindowFormat kw'.boundaryFormat) (h r h' r' : Seg) (ph pr : List Bool)
    (hh : Means kw.boundaryFormat h ph) (hr : Means kw.boundaryFormat r pr)
    (hh' : Means kw'.boundaryFormat h' ph.reverse) (hr' : Means kw'.boundaryFormat r' pr.reverse)
    (nh : Neighbours kw.boundaryFormat h) (nr : Neighbours kw.boundaryFormat r)
    (nh' : Neighbours kw'.boundaryFormat h') (nr' : Neighbours kw'.boundaryFormat r')
    (hl : ph.length = pr.length) (k : ℕ) (hk : UsesWindow kw pr k) (hk' : UsesWindow kw' pr k)
    (hn : k < pr.length + 1) (hfix : kw.lamprierFix = false) (hfix' : kw'.lamprierFix = false)
    (hrp : kw.returnParts = false) (hom : kw.oneMinus = false) (hrp' : kw'.returnParts = false)
    (hom' : kw'.oneMinus = false) (x : ℚ) :
    Returns (windowDiff kw h r) x ↔ Returns (windowDiff kw' h' r') x := by
  rw [C61_returns_iff kw hf h r ph pr hh hr nh nr hl k hk hn hfix hrp hom,
    C61_returns_iff kw' hf' h' r' _ _ hh' hr' nh' nr' (by simp [hl]) k (usesWindow_reverse.2 hk')
      (by simpa using hn) hfix' hrp' hom', wdErrors_reverse ph pr hl, List.length_reverse]

/-- C67: also with the fix. -/
theorem C67_fixed_reversed (kw kw' : WinKw) (hf : WindowFormat kw.boundaryFormat)
    (hf' : WindowFormat kw'.boundaryFormat) (h r h' r' : Seg) (ph pr : List Bool)
    (hh : Means kw.boundaryFormat h ph) (hr : Means kw.boundaryFormat r pr)
    (hh' : Means kw'.boundaryFormat h' ph.reverse) (hr' : Means kw'.boundaryFormat r' pr.reverse)
    (nh : Neighbours kw.boundaryFormat h) (nr : Neighbours kw.boundaryFormat r)
    (nh' : Neighbours kw'.boundaryFormat h') (nr' : Neighbours kw'.boundaryFormat r')
    (qh : Paddable kw.boundaryFormat h) (qr : Paddable kw.boundaryFormat r)
    (qh' : Paddable kw'.boundaryFormat h') (qr' : Paddable kw'.boundaryFormat r')
    (hl : ph.length = pr.length) (k : ℕ) (hk : UsesWindow kw pr k) (hk' : UsesWindow kw' pr k)
    (hk1 : 1 ≤ k) (hfix : kw.lamprierFix = true) (hfix' : kw'.lamprierFix = true)
    (hrp : kw.returnParts = false) (hom : kw.oneMinus = false) (hrp' : kw'.returnParts = false)
    (hom' : kw'.oneMinus = false) (x : ℚ) :
    Returns (windowDiff kw h r) x ↔ Returns (windowDiff kw' h' r') x := by
  have hlp : (padded k ph).length = (padded k pr).length := by
    simp only [padded, List.length_append, hl]
  rw [C62_returns_iff kw hf h r ph pr hh hr nh nr qh qr hl k hk hk1 hfix hrp hom,
    C62_returns_iff kw' hf' h' r' _ _ hh' hr' nh' nr' qh' qr' (by simp [hl]) k
      (usesWindow_reverse.2 hk') hk1 hfix' hrp' hom', padded_reverse, padded_reverse,
    wdErrors_reverse _ _ hlp, List.length_reverse]

example : Returns (pk { windowSize := some 2 } (massSeg [2, 3, 1]) (massSeg [3, 1, 2])) (1 / 2) ∧
    Returns (pk { windowSize := some 2 } (massSeg [1, 3, 2]) (massSeg [2, 1, 3])) (1 / 2) :=
  ⟨⟨.dec (1 / 2), by decide +kernel, rfl⟩, ⟨.dec (1 / 2), by decide +kernel, rfl⟩⟩

/-- C67: with the default n_t, where the segmentations differ in one boundary type only, the
similarities of the reversed segmentations are the same. -/
theorem C67_similarity_reversed (rt rt' : Runtime) (kw : SimKw) (hw : Supplied kw.weight)
    (hr : kw.returnParts = false) (hn : kw.nT = 2) (a b a' b' : Seg) (sa sb : BString)
    (ha : Denotes kw.boundaryFormat a sa) (hb : Denotes kw.boundaryFormat b sb)
    (ha' : Denotes kw.boundaryFormat a' sa.reverse) (hb' : Denotes kw.boundaryFormat b' sb.reverse)
    (hs : SharedTypes rt sa sb) (hs' : SharedTypes rt' sa sb) (t : ℤ) (h1 : OneType sa sb t) :
    boundarySimilarity rt kw a b = boundarySimilarity rt' kw a' b' ∧
    segmentationSimilarity rt kw a b = segmentationSimilarity rt' kw a' b' := by
  have h := stats_reverse (rt := rt) (rt' := rt') hw hs hs' h1
  have key : SameStats (boundaryStatistics rt kw.boundaryFormat kw.nT kw.weight a b)
      (boundaryStatistics rt' kw.boundaryFormat kw.nT kw.weight a' b') := by
    rw [boundaryStatistics_denotes ha hb, boundaryStatistics_denotes ha' hb', hn]
    exact h
  exact ⟨boundarySim_same hr key, segmentationSim_same key⟩

/-- C67: so it is for masses, positions and NLTK strings. -/
theorem C67_similarity_reversed_formats (rt rt' : Runtime) (kw : SimKw) (hw : Supplied kw.weight)
    (hr : kw.returnParts = false) (hn : kw.nT = 2) (hf : kw.boundaryFormat ≠ .sets)
    (a b a' b' : Seg) (sa sb : BString)
    (ha : Denotes kw.boundaryFormat a sa) (hb : Denotes kw.boundaryFormat b sb)
    (ha' : Denotes kw.boundaryFormat a' sa.reverse)
    (hb' : Denotes kw.boundaryFormat b' sb.reverse) :
    boundarySimilarity rt kw a b = boundarySimilarity rt' kw a' b' ∧
    segmentationSimilarity rt kw a b = segmentationSimilarity rt' kw a' b' := by
  refine C67_similarity_reversed rt rt' kw hw hr hn a b a' b' sa sb ha hb ha' hb'
    (denotes_shared rt ha hb hf) (denotes_shared rt' ha hb hf) 1 (fun p => ?_)
  rw [missedAt]
  exact Finset.union_subset (Finset.sdiff_subset.trans (denotes_types ha hf p))
    (Finset.sdiff_subset.trans (denotes_types hb hf p))

example : boundarySimilarity .ascending {} (massSeg [2, 3, 1]) (massSeg [3, 1, 2]) =
      .ok (.num (.dec (1 / 2))) ∧
    boundarySimilarity .ascending {} (massSeg [1, 3, 2]) (massSeg [2, 1, 3]) =
      .ok (.num (.dec (1 / 2))) := by decide +kernel

/-- C67: a larger window breaks it, since the search runs from left to right. -/
theorem C67_not_larger_window :
    boundarySimilarity .ascending { nT := 3 } (massSeg [3, 2, 1]) (massSeg [1, 3, 2]) =
      .ok (.num (.dec (2 / 9))) ∧
    boundarySimilarity .ascending { nT := 3 } (massSeg [1, 2, 3]) (massSeg [2, 3, 1]) =
      .ok (.num (.dec (1 / 2))) := by decide +kernel

/-- C67: so do two types. -/
theorem C67_not_two_types :
    boundarySimilarity .ascending { boundaryFormat := .sets } (.sets [{1}, ∅, {1}])
      (.sets [{2}, {1}, ∅]) = .ok (.num (.dec (1 / 6))) ∧
    boundarySimilarity .ascending { boundaryFormat := .sets } (.sets [{1}, ∅, {1}])
      (.sets [∅, {1}, {2}]) = .ok (.num (.dec (1 / 2))) := by decide +kernel

end SegEval.Props
