import Verif.Lemmas.WindowEval
import Verif.Props.Similarity

/-!
# C05, C16, C24–C32, C60–C62: window size, Pk and WindowDiff
-/

namespace SegEval.Props

open SegEval Spec

/-! ## Concrete documents -/

theorem massSeg_means (l : List ℤ) (h : l ≠ []) (hp : ∀ m ∈ l, 0 < m) :
    Means .mass (massSeg l) (massPat l) := by
  have : (l.map (fun m => (⟨m, 0⟩ : Obj))).map Obj.val = l := by simp [Function.comp_def]
  show MassMeans ((l.map (fun m => (⟨m, 0⟩ : Obj))).map Obj.val) _
  rw [this]; exact (massMeans_iff _ _).2 ⟨h, hp, rfl⟩

/-- Labels, as a tuple of ints all allocated once per value. -/
def labelSeg (l : List ℤ) : Seg := .ints true (l.map (fun m => ⟨m, 0⟩))

theorem labelSeg_means (l : List ℤ) (h : l ≠ []) :
    Means .position (labelSeg l) (changes l) := by
  have : (l.map (fun m => (⟨m, 0⟩ : Obj))).map Obj.val = l := by simp [Function.comp_def]
  show LabelsMean ((l.map (fun m => (⟨m, 0⟩ : Obj))).map Obj.val) _
  rw [this]; exact (labelsMean_iff _ _).2 ⟨h, rfl⟩

/-! ## C25: the window size -/

/-- C25: at least 2. -/
theorem C25_at_least_two (f : ℚ → ℤ) (fmt : BoundaryFormat) (t : MassTree) (w : ℤ)
    (h : computeWindowSize f fmt t = .ok w) : 2 ≤ w := by
  rw [computeWindowSize] at h
  split at h
  · cases h
  · simp only [Except.ok.injEq] at h; rw [← h]; exact windowSize_ge _ _

theorem listCoderMasses_all (cs : List MassTree) (ls : List (List ℤ))
    (h : List.Forall₂ (fun c l => listCoderMasses c = .ok l) cs ls) :
    listCoderMassesAll cs = .ok ls.flatten := by
  induction h with
  | nil => rfl
  | cons h1 _ ih => rw [listCoderMassesAll, h1]; simp only; rw [ih]; rfl

theorem listCoderMasses_spec {t : MassTree} {ms : List ℤ} (h : HasMasses t ms) :
    listCoderMasses t = .ok ms := by
  refine HasMasses.rec
    (motive_1 := fun t ms _ => listCoderMasses t = .ok ms)
    (motive_2 := fun cs ls _ => List.Forall₂ (fun c l => listCoderMasses c = .ok l) cs ls)
    ?_ ?_ ?_ ?_ h
  · intro ms; rw [listCoderMasses]
  · intro cs ls _ ih; rw [listCoderMasses]; exact listCoderMasses_all cs ls ih
  · exact .nil
  · intro a b l1 l2 h1 h2 ih1 ih2; exact .cons ih1 ih2

/-- C25: the rounded half of the mean segment size, for any nesting. -/
theorem C25_half_mean (f : ℚ → ℤ) (fmt : BoundaryFormat) (hf : fmt ≠ .position) (t : MassTree)
    (ms : List ℤ) (h : HasMasses t ms) (hne : ms ≠ []) :
    computeWindowSize f fmt t = .ok (max 2 (f ((ms.sum : ℚ) / ms.length / 2))) := by
  rw [computeWindowSize, if_neg hf, listCoderMasses_spec h]
  simp only
  have := List.length_pos_of_ne_nil hne
  rw [windowSize_max, meanQ, List.length_map, if_pos (by omega), sum_cast]

/-- C25: only the multiset of masses matters. -/
theorem C25_multiset (f : ℚ → ℤ) (fmt : BoundaryFormat) (hf : fmt ≠ .position) (t t' : MassTree)
    (ms ms' : List ℤ) (h : HasMasses t ms) (h' : HasMasses t' ms') (hp : ms.Perm ms') :
    computeWindowSize f fmt t = computeWindowSize f fmt t' := by
  rw [computeWindowSize, computeWindowSize, if_neg hf, if_neg hf, listCoderMasses_spec h,
    listCoderMasses_spec h']
  simp only
  rw [windowSize_max, windowSize_max, meanQ, meanQ, List.length_map, List.length_map, sum_cast,
    sum_cast, hp.length_eq, hp.sum_eq]

/-- C25: labels give the same window as the masses of the same segmentation. -/
theorem C25_positions (f : ℚ → ℤ) (labels masses : List ℤ) (pat : List Bool)
    (hl : LabelsMean labels pat) (hm : MassMeans masses pat) :
    computeWindowSize f .position (.leaf labels) = computeWindowSize f .mass (.leaf masses) := by
  obtain ⟨h1, rfl⟩ := (labelsMean_iff _ _).1 hl
  obtain ⟨h2, h3, h4⟩ := (massMeans_iff _ _).1 hm
  have e : (runs labels).map Int.ofNat = masses := by
    rw [runs_eq _ h1, h4, runsPat_massPat _ h3 h2]
  rw [computeWindowSize, computeWindowSize, if_pos rfl, if_neg (by decide), treePositionsToMasses,
    e, listCoderMasses]

/-- C25: the standard rounding is to the nearest integer. -/
theorem C25_round_nearest (q : ℚ) : |(roundHalfEven q : ℚ) - q| ≤ 1 / 2 := by
  unfold roundHalfEven
  simp only
  have h1 : ((q.floor : ℤ) : ℚ) ≤ q := Rat.floor_le q
  have h2 : q < ((q.floor : ℤ) : ℚ) + 1 := by
    have := Rat.lt_floor_add_one q; push_cast at this; exact this
  rw [abs_le]
  split
  · constructor <;> linarith
  · split
    · push_cast; constructor <;> linarith
    · split
      · constructor <;> linarith
      · push_cast; constructor <;> linarith

/-- The `round` of Python 2 and the `round` of Python 3 differ exactly half way above an even number. -/
theorem round_versions (q : ℚ) :
    roundHalfUp q = roundHalfEven q + 1 ∧ (∃ m : ℤ, q = 2 * m + 1 / 2 ∧ roundHalfEven q = 2 * m) ∨
    roundHalfUp q = roundHalfEven q ∧ ∀ m : ℤ, q ≠ 2 * m + 1 / 2 := by
  have h1 : ((q.floor : ℤ) : ℚ) ≤ q := Rat.floor_le q
  have h2 : q < ((q.floor : ℤ) : ℚ) + 1 := by
    have := Rat.lt_floor_add_one q; push_cast at this; exact this
  have up : ∀ z : ℤ, (z : ℚ) ≤ q + 1 / 2 → q + 1 / 2 < z + 1 → roundHalfUp q = z := by
    intro z hz hz'
    unfold roundHalfUp
    refine le_antisymm ?_ (Rat.le_floor_iff.2 hz)
    have h3 : (((q + 1 / 2).floor : ℤ) : ℚ) ≤ q + 1 / 2 := Rat.floor_le _
    have : (((q + 1 / 2).floor : ℤ) : ℚ) < ((z + 1 : ℤ) : ℚ) := by push_cast; linarith
    have := Int.cast_lt.1 this
    omega
  have tie : ∀ m : ℤ, q = 2 * m + 1 / 2 → q.floor = 2 * m := by
    intro m hm
    have a1 : ((q.floor : ℤ) : ℚ) < ((2 * m + 1 : ℤ) : ℚ) := by push_cast; linarith
    have a2 : ((2 * m : ℤ) : ℚ) < ((q.floor + 1 : ℤ) : ℚ) := by push_cast; linarith
    have := Int.cast_lt.1 a1
    have := Int.cast_lt.1 a2
    omega
  unfold roundHalfEven
  simp only
  split
  · rename_i hr
    refine .inr ⟨up _ (by linarith) (by linarith), fun m hm => ?_⟩
    rw [tie m hm, hm] at hr
    push_cast at hr
    linarith
  · split
    · rename_i hr
      refine .inr ⟨up _ (by push_cast; linarith) (by push_cast; linarith), fun m hm => ?_⟩
      rw [tie m hm, hm] at hr
      push_cast at hr
      linarith
    · rename_i hr hr'
      have hq : q = q.floor + 1 / 2 := by linarith
      have hu := up (q.floor + 1) (by push_cast; linarith) (by push_cast; linarith)
      split
      · rename_i he
        refine .inl ⟨hu, q.floor / 2, ?_, by omega⟩
        have : ((q.floor : ℤ) : ℚ) = ((2 * (q.floor / 2) : ℤ) : ℚ) := by
          congr 1; omega
        push_cast at this
        rw [← this]; exact hq
      · rename_i he
        refine .inr ⟨hu, fun m hm => he ?_⟩
        rw [tie m hm]; omega

/-- C25: the window under Python 2 is the window under Python 3, except when half the mean segment
size lies half way between an even number (2 or more) and the next: then it is one larger. -/
theorem C25_interpreters (fmt : BoundaryFormat) (hf : fmt ≠ .position) (t : MassTree)
    (ms : List ℤ) (h : HasMasses t ms) (hne : ms ≠ []) (w2 w3 : ℤ)
    (h2 : computeWindowSize roundHalfUp fmt t = .ok w2)
    (h3 : computeWindowSize roundHalfEven fmt t = .ok w3) :
    (w2 = w3 ∨ w2 = w3 + 1) ∧
    (w2 ≠ w3 ↔ ∃ m : ℤ, 1 ≤ m ∧ (ms.sum : ℚ) / ms.length = 4 * m + 1) := by
  rw [C25_half_mean _ fmt hf t ms h hne, Except.ok.injEq] at h2 h3
  subst h2 h3
  generalize (ms.sum : ℚ) / ms.length = q
  rcases round_versions (q / 2) with ⟨h1, m, hm, hr⟩ | ⟨h1, hm⟩
  · rw [h1, hr]
    constructor
    · omega
    · constructor
      · intro hne'
        refine ⟨m, by omega, by linarith⟩
      · rintro ⟨m', hm', hq⟩
        have : m = m' := by
          have : ((m : ℤ) : ℚ) = m' := by linarith
          exact_mod_cast this
        omega
  · rw [h1]
    refine ⟨.inl rfl, fun hc => absurd rfl hc, ?_⟩
    rintro ⟨m, -, hq⟩
    exact absurd (by rw [hq]; ring) (hm m)

/-- A reference of segments of five units: window 3 under Python 2, 2 under Python 3, and another
WindowDiff. -/
example : computeWindowSize roundHalfUp .mass (.leaf [5, 5, 5]) = .ok 3 ∧
    computeWindowSize roundHalfEven .mass (.leaf [5, 5, 5]) = .ok 2 ∧
    HasMasses (.leaf [5, 5, 5]) [5, 5, 5] ∧
    windowDiff { fncRound := roundHalfUp } (massSeg [5, 10]) (massSeg [5, 5, 5]) =
      .ok (.num (.dec (1 / 4))) ∧
    windowDiff {} (massSeg [5, 10]) (massSeg [5, 5, 5]) = .ok (.num (.dec (2 / 13))) :=
  ⟨by decide +kernel, by decide +kernel, .leaf _, by decide +kernel, by decide +kernel⟩

/-- Two documents by two coders, with the expected window 3. -/
example : computeWindowSize roundHalfEven .mass
    (.node [.node [.leaf [5, 4], .leaf [9]], .node [.leaf [3, 6], .leaf [4, 5, 9]]]) = .ok 3 ∧
    HasMasses (.node [.node [.leaf [5, 4], .leaf [9]]]) [5, 4, 9] := by
  refine ⟨by decide +kernel, ?_⟩
  exact .node _ [[5, 4, 9]] (.cons (.node _ [[5, 4], [9]] (.cons (.leaf _) (.cons (.leaf _) .nil))) .nil)

/-! ## C05: formats -/

/-- C05: Pk depends only on the segmentations denoted.  Partial: labels are not reused, see
`C05_pk_repeated_labels`. -/
theorem C05_pk_formats_partial (kw : WinKw) (fmt fmt' : BoundaryFormat) (hf : WindowFormat fmt)
    (hf' : WindowFormat fmt') (h r h' r' : Seg) (ph pr : List Bool) (hh : Means fmt h ph)
    (hr : Means fmt r pr) (hh' : Means fmt' h' ph) (hr' : Means fmt' r' pr)
    (uh : Unrepeated fmt h) (ur : Unrepeated fmt r) (uh' : Unrepeated fmt' h')
    (ur' : Unrepeated fmt' r') (k : ℕ) (hk : UsesWindow kw pr k) :
    pk { kw with boundaryFormat := fmt } h r = pk { kw with boundaryFormat := fmt' } h' r' := by
  obtain ⟨th, lh, R1, _, U1, _⟩ := reads_of_means hf hh
  obtain ⟨tr, lr, R2, _, U2, _⟩ := reads_of_means hf hr
  obtain ⟨th', lh', R1', _, U1', _⟩ := reads_of_means hf' hh'
  obtain ⟨tr', lr', R2', _, U2', _⟩ := reads_of_means hf' hr'
  by_cases hl : ph.length = pr.length
  · have e1 := positionsChecked_ok R1 R2 hl
    have e1' := positionsChecked_ok R1' R2' hl
    have w1 : effectiveWindow { kw with boundaryFormat := fmt } lr = .ok (k : ℤ) :=
      effectiveWindow_spec R2.ne_nil (by rw [R2.pat]; exact hk)
    have w1' : effectiveWindow { kw with boundaryFormat := fmt' } lr' = .ok (k : ℤ) :=
      effectiveWindow_spec R2'.ne_nil (by rw [R2'.pat]; exact hk)
    have s1 := pkDifferences_eq (U1 uh) (U2 ur) (by rw [R2.len, R1.len, hl]) R2.ne_nil k
    have s1' := pkDifferences_eq (U1' uh') (U2' ur') (by rw [R2'.len, R1'.len, hl]) R2'.ne_nil k
    rw [R1.pat, R2.pat] at s1
    rw [R1'.pat, R2'.pat] at s1'
    rw [pk_eq e1 w1 s1, pk_eq e1' w1' s1', R2.len, R2'.len]
    rfl
  · have hne : lr.length ≠ lh.length := by rw [R2.len, R1.len]; omega
    have hne' : lr'.length ≠ lh'.length := by rw [R2'.len, R1'.len]; omega
    rw [pk, pk, positionsChecked, positionsChecked]
    simp only
    rw [R2.pos, R1.pos, R2'.pos, R1'.pos]
    simp only
    rw [if_pos hne, if_pos hne']

/-- C05: WindowDiff depends only on the segmentations denoted.  Partial: equal neighbouring labels
are the same object (see `C05_large_labels`) and, with the fix, labels are in tuples and do not start
or end with 0 (see `C31_zero_label`). -/
theorem C05_window_diff_formats_partial (kw : WinKw) (fmt fmt' : BoundaryFormat) (hf : WindowFormat fmt)
    (hf' : WindowFormat fmt') (h r h' r' : Seg) (ph pr : List Bool) (hh : Means fmt h ph)
    (hr : Means fmt r pr) (hh' : Means fmt' h' ph) (hr' : Means fmt' r' pr)
    (nh : Neighbours fmt h) (nr : Neighbours fmt r) (nh' : Neighbours fmt' h')
    (nr' : Neighbours fmt' r') (hp : kw.lamprierFix = true → Paddable fmt h ∧ Paddable fmt r ∧
      Paddable fmt' h' ∧ Paddable fmt' r') (k : ℕ) (hk1 : 1 ≤ k) (hk : UsesWindow kw pr k) :
    windowDiff { kw with boundaryFormat := fmt } h r =
      windowDiff { kw with boundaryFormat := fmt' } h' r' := by
  obtain ⟨th, lh, R1, A1, _, P1⟩ := reads_of_means hf hh
  obtain ⟨tr, lr, R2, A2, _, P2⟩ := reads_of_means hf hr
  obtain ⟨th', lh', R1', A1', _, P1'⟩ := reads_of_means hf' hh'
  obtain ⟨tr', lr', R2', A2', _, P2'⟩ := reads_of_means hf' hr'
  by_cases hl : ph.length = pr.length
  · have e1 := positionsChecked_ok R1 R2 hl
    have e1' := positionsChecked_ok R1' R2' hl
    have w1 : effectiveWindow { kw with boundaryFormat := fmt } lr = .ok (k : ℤ) :=
      effectiveWindow_spec R2.ne_nil (by rw [R2.pat]; exact hk)
    have w1' : effectiveWindow { kw with boundaryFormat := fmt' } lr' = .ok (k : ℤ) :=
      effectiveWindow_spec R2'.ne_nil (by rw [R2'.pat]; exact hk)
    have hll : lr.length = lh.length := by rw [R2.len, R1.len, hl]
    have hll' : lr'.length = lh'.length := by rw [R2'.len, R1'.len, hl]
    have f1 : kw.lamprierFix = true → tr = true ∧ th = true := fun hx =>
      ⟨(P2 (hp hx).2.1).1, (P1 (hp hx).1).1⟩
    have f1' : kw.lamprierFix = true → tr' = true ∧ th' = true := fun hx =>
      ⟨(P2' (hp hx).2.2.2).1, (P1' (hp hx).2.2.1).1⟩
    have hu : (unitsOf kw.lamprierFix k lr).length = (unitsOf kw.lamprierFix k lr').length :=
      unitsOf_length _ _ (by rw [R2.len, R2'.len])
    have hz : ((unitsOf kw.lamprierFix k lr).zip (unitsOf kw.lamprierFix k lh)).length =
        (unitsOf kw.lamprierFix k lr).length := by
      rw [List.length_zip, unitsOf_length _ _ hll, min_self]
    have hz' : ((unitsOf kw.lamprierFix k lr').zip (unitsOf kw.lamprierFix k lh')).length =
        (unitsOf kw.lamprierFix k lr').length := by
      rw [List.length_zip, unitsOf_length _ _ hll', min_self]
    by_cases hs : k ≤ 255
    · have s1 := sumDifferences_eq (unitsOf_adj (A1 nh) kw.lamprierFix k)
        (unitsOf_adj (A2 nr) kw.lamprierFix k) (unitsOf_length _ _ hll)
        (unitsOf_ne_nil R2.ne_nil _ _) k hs
      have s1' := sumDifferences_eq (unitsOf_adj (A1' nh') kw.lamprierFix k)
        (unitsOf_adj (A2' nr') kw.lamprierFix k) (unitsOf_length _ _ hll')
        (unitsOf_ne_nil R2'.ne_nil _ _) k hs
      have c1 : changes ((unitsOf kw.lamprierFix k lh).map Obj.val) =
          changes ((unitsOf kw.lamprierFix k lh').map Obj.val) := by
        cases hx : kw.lamprierFix
        · simp only [unitsOf, Bool.false_eq_true, if_false]; rw [R1.pat, R1'.pat]
        · rw [unitsOf_changes R1.ne_nil (P1 (hp hx).1).2.1 (P1 (hp hx).1).2.2 k hk1,
            unitsOf_changes R1'.ne_nil (P1' (hp hx).2.2.1).2.1 (P1' (hp hx).2.2.1).2.2 k hk1,
            R1.pat, R1'.pat]
      have c2 : changes ((unitsOf kw.lamprierFix k lr).map Obj.val) =
          changes ((unitsOf kw.lamprierFix k lr').map Obj.val) := by
        cases hx : kw.lamprierFix
        · simp only [unitsOf, Bool.false_eq_true, if_false]; rw [R2.pat, R2'.pat]
        · rw [unitsOf_changes R2.ne_nil (P2 (hp hx).2.1).2.1 (P2 (hp hx).2.1).2.2 k hk1,
            unitsOf_changes R2'.ne_nil (P2' (hp hx).2.2.2).2.1 (P2' (hp hx).2.2.2).2.2 k hk1,
            R2.pat, R2'.pat]
      rw [c1, c2] at s1
      rw [wd_eq e1 w1 hll f1 s1, wd_eq e1' w1' hll' f1' s1']
      simp only
      rw [hu]
      rfl
    · by_cases hlt : (k : ℤ) < ((unitsOf kw.lamprierFix k lr).length : ℤ)
      · rw [wd_err e1 w1 f1 (sumDifferences_assert _ _ (by rw [hz]; exact hlt) (.inl (by omega))),
          wd_err e1' w1' f1'
            (sumDifferences_assert _ _ (by rw [hz', ← hu]; exact hlt) (.inl (by omega)))]
      · rw [wd_eq e1 w1 hll f1 (sumDifferences_short _ _ (by rw [hz]; omega)),
          wd_eq e1' w1' hll' f1' (sumDifferences_short _ _ (by rw [hz']; omega))]
        simp only
        rw [hu]
        rfl
  · have hne : lr.length ≠ lh.length := by rw [R2.len, R1.len]; omega
    have hne' : lr'.length ≠ lh'.length := by rw [R2'.len, R1'.len]; omega
    rw [windowDiff, windowDiff, positionsChecked, positionsChecked]
    simp only
    rw [R2.pos, R1.pos, R2'.pos, R1'.pos]
    simp only
    rw [if_pos hne, if_pos hne']

/-- One document as masses and as labels. -/
example : Means .mass (massSeg [2, 3, 1]) [false, true, false, false, true] ∧
    Means .position (labelSeg [4, 4, 300, 300, 300, 5]) [false, true, false, false, true] ∧
    Neighbours .position (labelSeg [4, 4, 300, 300, 300, 5]) ∧
    pk { boundaryFormat := .mass } (massSeg [2, 3, 1]) (massSeg [4, 2]) =
      .ok (.num (.dec (3 / 4))) := by
  refine ⟨massSeg_means _ (by simp) (by decide), ?_, ?_, by decide +kernel⟩
  · have := labelSeg_means [4, 4, 300, 300, 300, 5] (by simp)
    simpa [changes] using this
  · intro i x y hx hy hv
    simp only [List.getElem?_map, Option.map_eq_some_iff] at hx hy
    obtain ⟨_, _, rfl⟩ := hx
    obtain ⟨_, _, rfl⟩ := hy
    exact is_tag hv rfl

/-- C05 refuted for repeated labels: Pk takes two segments with one label for one segment. -/
theorem C05_pk_repeated_labels : Means .mass (massSeg [2, 2, 2]) [false, true, false, true, false] ∧
    Means .position (labelSeg [1, 1, 2, 2, 1, 1]) [false, true, false, true, false] ∧
    Means .mass (massSeg [6]) [false, false, false, false, false] ∧
    Means .position (labelSeg [1, 1, 1, 1, 1, 1]) [false, false, false, false, false] ∧
    pk { windowSize := some 4, boundaryFormat := .mass } (massSeg [2, 2, 2]) (massSeg [6]) =
      .ok (.num (.dec 1)) ∧
    pk { windowSize := some 4, boundaryFormat := .position } (labelSeg [1, 1, 2, 2, 1, 1])
      (labelSeg [1, 1, 1, 1, 1, 1]) = .ok (.num (.dec 0)) := by
  refine ⟨massSeg_means _ (by simp) (by decide), ?_, massSeg_means _ (by simp) (by decide), ?_,
    by decide +kernel, by decide +kernel⟩
  · simpa [changes] using labelSeg_means [1, 1, 2, 2, 1, 1] (by simp)
  · simpa [changes] using labelSeg_means [1, 1, 1, 1, 1, 1] (by simp)

/-- C05 refuted for large labels: equal labels that are separate objects count as a boundary. -/
theorem C05_large_labels :
    Means .position (.ints true [⟨300, 0⟩, ⟨300, 1⟩, ⟨300, 2⟩]) [false, false] ∧
    windowDiff { windowSize := some 1, boundaryFormat := .position }
      (.ints true [⟨300, 0⟩, ⟨300, 1⟩, ⟨300, 2⟩]) (labelSeg [1, 1, 1]) = .ok (.num (.dec 1)) ∧
    windowDiff { windowSize := some 1, boundaryFormat := .mass } (massSeg [3]) (massSeg [3]) =
      .ok (.num (.dec 0)) ∧
    pk { windowSize := some 1, boundaryFormat := .position }
      (.ints true [⟨300, 0⟩, ⟨300, 1⟩, ⟨300, 2⟩]) (labelSeg [1, 1, 1]) = .ok (.num (.dec 1)) := by
  refine ⟨(labelsMean_iff _ _).2 ⟨by simp, by decide +kernel⟩, by decide +kernel, by decide +kernel,
    by decide +kernel⟩

/-! ## C16: lengths -/

/-- C16: different numbers of units raise `SegmentationMetricError`. -/
theorem C16_window_lengths_partial (kw : WinKw) (hf : WindowFormat kw.boundaryFormat) (h r : Seg)
    (ph pr : List Bool) (hh : Means kw.boundaryFormat h ph) (hr : Means kw.boundaryFormat r pr)
    (hl : ph.length ≠ pr.length) : pk kw h r = .error .segmentationMetricError ∧
    windowDiff kw h r = .error .segmentationMetricError := by
  obtain ⟨th, lh, R1, _, U1, _⟩ := reads_of_means hf hh
  obtain ⟨tr, lr, R2, _, U2, _⟩ := reads_of_means hf hr
  have hne : lr.length ≠ lh.length := by rw [R2.len, R1.len]; omega
  have : positionsChecked kw.boundaryFormat h r = .error .segmentationMetricError := by
    rw [positionsChecked, R2.pos, R1.pos]
    simp only
    rw [if_pos hne]
  constructor
  · rw [pk, this]
  · rw [windowDiff, this]

example : pk {} (massSeg [2, 3]) (massSeg [2, 4]) = .error .segmentationMetricError ∧
    windowDiff {} (massSeg [2, 3]) (massSeg [2, 4]) = .error .segmentationMetricError := by
  decide +kernel

/-! ## C24: options -/

/-- C24: Pk's parts have the value as quotient (value 0 when there is no probe). -/
theorem C24_pk_parts (kw : WinKw) (h r : Seg) (x : ℚ)
    (hx : Returns (pk { kw with returnParts := false, oneMinus := false } h r) x) :
    ∃ s m : ℤ, pk { kw with returnParts := true, oneMinus := false } h r =
      .ok (.parts (.int s) (.int m)) ∧ x = (s : ℚ) / m ∧ (m = 0 → s = 0) := by
  obtain ⟨v, hv, rfl⟩ := hx
  obtain ⟨th, lh, tr, lr, w, s, h1, h2, h3, h4⟩ := pk_inv hv
  refine ⟨s, (((lr.length : ℤ) - w).toNat : ℤ), ?_, ?_, ?_⟩
  · rw [pk_eq (kw := { kw with returnParts := true, oneMinus := false }) h1 h2 h3]; rfl
  · unfold pkOut at h4
    simp only [Bool.false_eq_true, if_false] at h4
    split at h4
    · simp only [Except.ok.injEq, MetricOut.num.injEq] at h4
      rw [← h4]; rfl
    · rename_i hm
      simp only [Except.ok.injEq, MetricOut.num.injEq] at h4
      have h0 : (((lr.length : ℤ) - w).toNat : ℤ) = 0 := by omega
      rw [← h4, h0]; simp [PyNum.val]
  · intro h0
    have := pkDifferences_bounds h3
    omega

/-- C24: `one_minus` gives 1 minus Pk. -/
theorem C24_pk_one_minus (kw : WinKw) (h r : Seg) (x : ℚ)
    (hx : Returns (pk { kw with returnParts := false, oneMinus := false } h r) x) :
    Returns (pk { kw with returnParts := false, oneMinus := true } h r) (1 - x) := by
  obtain ⟨v, hv, rfl⟩ := hx
  obtain ⟨th, lh, tr, lr, w, s, h1, h2, h3, h4⟩ := pk_inv hv
  rw [pk_eq (kw := { kw with returnParts := false, oneMinus := true }) h1 h2 h3]
  unfold pkOut at h4 ⊢
  simp only [Bool.false_eq_true, if_false, if_true] at h4 ⊢
  split at h4
  · rename_i hm
    simp only [Except.ok.injEq, MetricOut.num.injEq] at h4
    rw [if_pos hm, ← h4]
    exact ⟨_, rfl, rfl⟩
  · rename_i hm
    simp only [Except.ok.injEq, MetricOut.num.injEq] at h4
    rw [if_neg hm, ← h4]
    exact ⟨_, rfl, rfl⟩

/-- C24 refuted for the combination: Pk's parts ignore `one_minus`. -/
theorem C24_pk_parts_ignore_one_minus (kw : WinKw) (h r : Seg) (om : Bool) :
    pk { kw with returnParts := true, oneMinus := om } h r =
      pk { kw with returnParts := true, oneMinus := false } h r := by
  unfold pk
  simp only [if_true]
  rfl

/-- C24: WindowDiff's parts have the value as quotient. -/
theorem C24_window_diff_parts (kw : WinKw) (h r : Seg) (x : ℚ)
    (hx : Returns (windowDiff { kw with returnParts := false, oneMinus := false } h r) x) :
    ∃ s d : ℤ, windowDiff { kw with returnParts := true, oneMinus := false } h r =
      .ok (.parts (.int s) (.int d)) ∧ x = (s : ℚ) / d ∧ d ≠ 0 := by
  obtain ⟨v, hv, rfl⟩ := hx
  obtain ⟨th, lh, tr, lr, w, s, h1, h2, hl, hf, h3, h4⟩ := wd_inv hv
  have := wd_eq (kw := { kw with returnParts := true, oneMinus := false }) h1 h2 hl hf h3
  rw [this]
  simp only at h4 ⊢
  unfold wdOut at h4 ⊢
  set d := wdDen kw.lamprierFix (unitsOf kw.lamprierFix w lr).length w with hd
  by_cases hd0 : d = 0
  · rw [if_pos hd0] at h4
    split at h4 <;> cases h4
  · rw [if_neg hd0] at h4 ⊢
    by_cases h1 : (s : ℚ) / d ≤ 1
    · rw [if_neg (not_not.2 h1)] at h4 ⊢
      simp only [if_true, Bool.false_eq_true, if_false, Except.ok.injEq, MetricOut.num.injEq] at h4 ⊢
      exact ⟨s, d, rfl, by rw [← h4]; rfl, hd0⟩
    · rw [if_pos h1] at h4; cases h4

/-- C24: `one_minus` gives 1 minus WindowDiff; it also overrides `return_parts`. -/
theorem C24_window_diff_one_minus (kw : WinKw) (h r : Seg) (rp : Bool) (x : ℚ)
    (hx : Returns (windowDiff { kw with returnParts := false, oneMinus := false } h r) x) :
    Returns (windowDiff { kw with returnParts := rp, oneMinus := true } h r) (1 - x) := by
  obtain ⟨v, hv, rfl⟩ := hx
  obtain ⟨th, lh, tr, lr, w, s, h1, h2, hl, hf, h3, h4⟩ := wd_inv hv
  have := wd_eq (kw := { kw with returnParts := rp, oneMinus := true }) h1 h2 hl hf h3
  rw [this]
  simp only at h4 ⊢
  unfold wdOut at h4 ⊢
  set d := wdDen kw.lamprierFix (unitsOf kw.lamprierFix w lr).length w with hd
  by_cases hd0 : d = 0
  · rw [if_pos hd0] at h4
    split at h4 <;> cases h4
  · rw [if_neg hd0] at h4 ⊢
    by_cases h1 : (s : ℚ) / d ≤ 1
    · rw [if_neg (not_not.2 h1)] at h4 ⊢
      simp only [Bool.true_eq_false, Bool.false_eq_true, if_true, if_false, Except.ok.injEq, MetricOut.num.injEq] at h4 ⊢
      exact ⟨_, rfl, by rw [← h4]; rfl⟩
    · rw [if_pos h1] at h4; cases h4

example : pk {} (massSeg [2, 3, 1]) (massSeg [4, 2]) = .ok (.num (.dec (3 / 4))) ∧
    pk { returnParts := true } (massSeg [2, 3, 1]) (massSeg [4, 2]) =
      .ok (.parts (.int 3) (.int 4)) ∧
    pk { returnParts := true, oneMinus := true } (massSeg [2, 3, 1]) (massSeg [4, 2]) =
      .ok (.parts (.int 3) (.int 4)) ∧
    windowDiff {} (massSeg [2, 3, 1]) (massSeg [4, 2]) = .ok (.num (.dec (3 / 4))) ∧
    windowDiff { returnParts := true } (massSeg [2, 3, 1]) (massSeg [4, 2]) =
      .ok (.parts (.int 3) (.int 4)) ∧
    windowDiff { returnParts := true, oneMinus := true } (massSeg [2, 3, 1]) (massSeg [4, 2]) =
      .ok (.num (.dec (1 / 4))) := by decide +kernel

end SegEval.Props
