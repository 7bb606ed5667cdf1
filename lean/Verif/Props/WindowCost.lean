import Verif.Lemmas.WindowCost
import Verif.Props.Symmetries

/-!
# C113: what one boundary costs
-/

namespace SegEval.Props

open SegEval Spec

theorem close_of_errors {a b c : ℕ} {d : ℚ} (hd : 0 ≤ d) (h : |(a : ℚ) - b| ≤ c) :
    |(a : ℚ) / d - (b : ℚ) / d| ≤ (c : ℚ) / d := by
  rw [← sub_div, abs_div, abs_of_nonneg hd]
  exact div_le_div_of_nonneg_right h hd

theorem pkErrors_close {p q r : List Bool} {k : ℕ} {C : Finset ℕ}
    (h : ∀ i < windows (r.length + 1) k, i ∉ C → between p i k = between q i k) :
    |((pkErrors p r k).card : ℚ) - (pkErrors q r k).card| ≤ C.card :=
  errors_change (fun i hi hC => by unfold PkError; rw [h i hi hC])

theorem wdErrors_close {p q r : List Bool} {k : ℕ} {C : Finset ℕ}
    (h : ∀ i < windows (r.length + 1) k, i ∉ C → between p i k = between q i k) :
    |((wdErrors p r k).card : ℚ) - (wdErrors q r k).card| ≤ C.card :=
  errors_change (fun i hi hC => by unfold WdError; rw [h i hi hC])

theorem moved_close {p q : List Bool} {W k a b : ℕ} (hm : BoundaryMoved p q a b) :
    ∀ i < W, i ∉ overOne W k a b → between p i k = between q i k := by
  intro i hi hC
  refine between_both hm ?_
  by_contra hn
  exact hC (Finset.mem_filter.2 ⟨Finset.mem_range.2 hi, hn⟩)

/-! ## Two hypotheses -/

/-- C113: hypotheses that differ in `d` places have Pk values at most `k * d / (n - k)` apart. -/
theorem C113_pk_difference (kw : WinKw) (hf : WindowFormat kw.boundaryFormat) (h h' r : Seg)
    (ph ph' pr : List Bool) (hh : Means kw.boundaryFormat h ph)
    (hh' : Means kw.boundaryFormat h' ph') (hr : Means kw.boundaryFormat r pr)
    (uh : Unrepeated kw.boundaryFormat h) (uh' : Unrepeated kw.boundaryFormat h')
    (ur : Unrepeated kw.boundaryFormat r) (hl : ph.length = pr.length) (hl' : ph'.length = pr.length)
    (k : ℕ) (hk : UsesWindow kw pr k) (hrp : kw.returnParts = false) (hom : kw.oneMinus = false)
    (x x' : ℚ) (hx : Returns (pk kw h r) x) (hx' : Returns (pk kw h' r) x') :
    |x - x'| ≤ ((k * (differing ph ph').card : ℕ) : ℚ) / (windows (pr.length + 1) k : ℕ) := by
  rw [returns_unique hx (C60_pk_formula kw hf h r ph pr hh hr uh ur hl k hk hrp hom),
    returns_unique hx' (C60_pk_formula kw hf h' r ph' pr hh' hr uh' ur hl' k hk hrp hom)]
  refine close_of_errors (Nat.cast_nonneg _) ((pkErrors_close (fun i hi hC =>
    between_untouched (hl.trans hl'.symm) hi hC)).trans ?_)
  exact_mod_cast touched_card _ _ _ _

/-- C113: so for WindowDiff. -/
theorem C113_window_diff_difference (kw : WinKw) (hf : WindowFormat kw.boundaryFormat) (h h' r : Seg)
    (ph ph' pr : List Bool) (hh : Means kw.boundaryFormat h ph)
    (hh' : Means kw.boundaryFormat h' ph') (hr : Means kw.boundaryFormat r pr)
    (nh : Neighbours kw.boundaryFormat h) (nh' : Neighbours kw.boundaryFormat h')
    (nr : Neighbours kw.boundaryFormat r) (hl : ph.length = pr.length) (hl' : ph'.length = pr.length)
    (k : ℕ) (hk : UsesWindow kw pr k) (hn : k < pr.length + 1) (hfix : kw.lamprierFix = false)
    (hrp : kw.returnParts = false) (hom : kw.oneMinus = false)
    (x x' : ℚ) (hx : Returns (windowDiff kw h r) x) (hx' : Returns (windowDiff kw h' r) x') :
    |x - x'| ≤ ((k * (differing ph ph').card : ℕ) : ℚ) / (windows (pr.length + 1) k : ℕ) := by
  rw [((C61_returns_iff kw hf h r ph pr hh hr nh nr hl k hk hn hfix hrp hom x).1 hx).2,
    ((C61_returns_iff kw hf h' r ph' pr hh' hr nh' nr hl' k hk hn hfix hrp hom x').1 hx').2]
  refine close_of_errors (Nat.cast_nonneg _) ((wdErrors_close (fun i hi hC =>
    between_untouched (hl.trans hl'.symm) hi hC)).trans ?_)
  exact_mod_cast touched_card _ _ _ _

/-- C113: and with the fix, over its larger number of windows. -/
theorem C113_fixed_difference (kw : WinKw) (hf : WindowFormat kw.boundaryFormat) (h h' r : Seg)
    (ph ph' pr : List Bool) (hh : Means kw.boundaryFormat h ph)
    (hh' : Means kw.boundaryFormat h' ph') (hr : Means kw.boundaryFormat r pr)
    (nh : Neighbours kw.boundaryFormat h) (nh' : Neighbours kw.boundaryFormat h')
    (nr : Neighbours kw.boundaryFormat r) (qh : Paddable kw.boundaryFormat h)
    (qh' : Paddable kw.boundaryFormat h') (qr : Paddable kw.boundaryFormat r)
    (hl : ph.length = pr.length) (hl' : ph'.length = pr.length)
    (k : ℕ) (hk : UsesWindow kw pr k) (hk1 : 1 ≤ k) (hfix : kw.lamprierFix = true)
    (hrp : kw.returnParts = false) (hom : kw.oneMinus = false)
    (x x' : ℚ) (hx : Returns (windowDiff kw h r) x) (hx' : Returns (windowDiff kw h' r) x') :
    |x - x'| ≤ ((k * (differing ph ph').card : ℕ) : ℚ) / ((pr.length : ℚ) + 1 + k + 1) := by
  rw [((C62_returns_iff kw hf h r ph pr hh hr nh nr qh qr hl k hk hk1 hfix hrp hom x).1 hx).2,
    ((C62_returns_iff kw hf h' r ph' pr hh' hr nh' nr qh' qr hl' k hk hk1 hfix hrp hom x').1 hx').2]
  have hpl : (padded k ph).length = (padded k ph').length := by
    simp only [padded, List.length_append, hl, hl']
  refine close_of_errors (by positivity) ((wdErrors_close (fun i hi hC =>
    between_untouched hpl hi hC)).trans ?_)
  exact_mod_cast (touched_card _ _ _ _).trans
    (Nat.mul_le_mul_left k (padded_differing k hk1 (hl.trans hl'.symm)))

/-- C113: a boundary of the hypothesis moved by `d` units changes Pk by at most
`2 * min d k / (n - k)`. -/
theorem C113_pk_moved (kw : WinKw) (hf : WindowFormat kw.boundaryFormat) (h h' r : Seg)
    (ph ph' pr : List Bool) (hh : Means kw.boundaryFormat h ph)
    (hh' : Means kw.boundaryFormat h' ph') (hr : Means kw.boundaryFormat r pr)
    (uh : Unrepeated kw.boundaryFormat h) (uh' : Unrepeated kw.boundaryFormat h')
    (ur : Unrepeated kw.boundaryFormat r) (hl : ph.length = pr.length) (hl' : ph'.length = pr.length)
    (a b : ℕ) (hm : BoundaryMoved ph ph' a b)
    (k : ℕ) (hk : UsesWindow kw pr k) (hrp : kw.returnParts = false) (hom : kw.oneMinus = false)
    (x x' : ℚ) (hx : Returns (pk kw h r) x) (hx' : Returns (pk kw h' r) x') :
    |x - x'| ≤ ((2 * min (max a b - min a b) k : ℕ) : ℚ) / (windows (pr.length + 1) k : ℕ) := by
  rw [returns_unique hx (C60_pk_formula kw hf h r ph pr hh hr uh ur hl k hk hrp hom),
    returns_unique hx' (C60_pk_formula kw hf h' r ph' pr hh' hr uh' ur hl' k hk hrp hom)]
  refine close_of_errors (Nat.cast_nonneg _) ((pkErrors_close (moved_close hm)).trans ?_)
  exact_mod_cast overOne_le _ _ _ _

/-- C113: so for WindowDiff. -/
theorem C113_window_diff_moved (kw : WinKw) (hf : WindowFormat kw.boundaryFormat) (h h' r : Seg)
    (ph ph' pr : List Bool) (hh : Means kw.boundaryFormat h ph)
    (hh' : Means kw.boundaryFormat h' ph') (hr : Means kw.boundaryFormat r pr)
    (nh : Neighbours kw.boundaryFormat h) (nh' : Neighbours kw.boundaryFormat h')
    (nr : Neighbours kw.boundaryFormat r) (hl : ph.length = pr.length) (hl' : ph'.length = pr.length)
    (a b : ℕ) (hm : BoundaryMoved ph ph' a b)
    (k : ℕ) (hk : UsesWindow kw pr k) (hn : k < pr.length + 1) (hfix : kw.lamprierFix = false)
    (hrp : kw.returnParts = false) (hom : kw.oneMinus = false)
    (x x' : ℚ) (hx : Returns (windowDiff kw h r) x) (hx' : Returns (windowDiff kw h' r) x') :
    |x - x'| ≤ ((2 * min (max a b - min a b) k : ℕ) : ℚ) / (windows (pr.length + 1) k : ℕ) := by
  rw [((C61_returns_iff kw hf h r ph pr hh hr nh nr hl k hk hn hfix hrp hom x).1 hx).2,
    ((C61_returns_iff kw hf h' r ph' pr hh' hr nh' nr hl' k hk hn hfix hrp hom x').1 hx').2]
  refine close_of_errors (Nat.cast_nonneg _) ((wdErrors_close (moved_close hm)).trans ?_)
  exact_mod_cast overOne_le _ _ _ _

/-! ## One difference from the reference -/

/-- C113: a hypothesis that is the reference but for one boundary too many or too few is in error for
Pk at the windows over it that hold no other boundary. -/
theorem C113_pk_one (kw : WinKw) (hf : WindowFormat kw.boundaryFormat) (h r : Seg)
    (ph pr : List Bool) (hh : Means kw.boundaryFormat h ph) (hr : Means kw.boundaryFormat r pr)
    (uh : Unrepeated kw.boundaryFormat h) (ur : Unrepeated kw.boundaryFormat r)
    (hl : ph.length = pr.length) (i : ℕ) (hi : DifferAt ph pr i) (k : ℕ) (hk : UsesWindow kw pr k)
    (hrp : kw.returnParts = false) (hom : kw.oneMinus = false) :
    Returns (pk kw h r) (((((Finset.range (pr.length + 1 - k)).filter (fun w => w ≤ i ∧ i < w + k ∧
      ∀ m ∈ Finset.Ico w (w + k), m ≠ i → pr[m]? ≠ some true)).card : ℕ) : ℚ) /
        (windows (pr.length + 1) k : ℕ)) := by
  have h1 := C60_pk_formula kw hf h r ph pr hh hr uh ur hl k hk hrp hom
  rw [pkErrors_one hl hi] at h1
  exact h1

/-- C113: for WindowDiff at all windows over it; near the ends there are fewer of these. -/
theorem C113_window_diff_one (kw : WinKw) (hf : WindowFormat kw.boundaryFormat) (h r : Seg)
    (ph pr : List Bool) (hh : Means kw.boundaryFormat h ph) (hr : Means kw.boundaryFormat r pr)
    (nh : Neighbours kw.boundaryFormat h) (nr : Neighbours kw.boundaryFormat r)
    (hl : ph.length = pr.length) (i : ℕ) (hi : DifferAt ph pr i) (k : ℕ) (hk : UsesWindow kw pr k)
    (hk2 : k ≤ 255) (hn : k < pr.length + 1) (hfix : kw.lamprierFix = false)
    (hrp : kw.returnParts = false) (hom : kw.oneMinus = false) :
    Returns (windowDiff kw h r)
      (((min (min (i + 1) k) (min (pr.length + 1 - k) (pr.length - i)) : ℕ) : ℚ) /
        (windows (pr.length + 1) k : ℕ)) := by
  have h1 := C61_window_diff_formula kw hf h r ph pr hh hr nh nr hl k hk hk2 hn hfix hrp hom
  rw [wdErrors_one hl hi, over_plain (hl ▸ lt_of_differ hl hi.here)] at h1
  exact h1

/-- C113: with the fix the cost is the same wherever the boundary is. -/
theorem C113_fixed_one (kw : WinKw) (hf : WindowFormat kw.boundaryFormat) (h r : Seg)
    (ph pr : List Bool) (hh : Means kw.boundaryFormat h ph) (hr : Means kw.boundaryFormat r pr)
    (nh : Neighbours kw.boundaryFormat h) (nr : Neighbours kw.boundaryFormat r)
    (qh : Paddable kw.boundaryFormat h) (qr : Paddable kw.boundaryFormat r)
    (hl : ph.length = pr.length) (i : ℕ) (hi : DifferAt ph pr i) (k : ℕ) (hk : UsesWindow kw pr k)
    (hk1 : 1 ≤ k) (hk2 : k ≤ 255)
    (hfix : kw.lamprierFix = true) (hrp : kw.returnParts = false) (hom : kw.oneMinus = false) :
    Returns (windowDiff kw h r) ((k : ℚ) / ((pr.length : ℚ) + 1 + k + 1)) := by
  have h1 := C62_fixed_formula kw hf h r ph pr hh hr nh nr qh qr hl k hk hk1 hk2 hfix hrp hom
  have hpl : (padded k ph).length = (padded k pr).length := by
    simp only [padded, List.length_append, hl]
  have hw : windows ((padded k pr).length + 1) k = pr.length + 1 + k := by
    rw [padded_length k hk1, windows]; omega
  rw [wdErrors_one hpl (padded_differAt k hk1 hl hi), hw,
    over_fixed (hl ▸ lt_of_differ hl hi.here)] at h1
  exact h1

/-- C113: with the fix a boundary `d` units from its place costs `2 * min d k / (n + k + 1)`,
wherever it is. -/
theorem C113_fixed_near_miss (kw : WinKw) (hf : WindowFormat kw.boundaryFormat) (h r : Seg)
    (ph pr : List Bool) (hh : Means kw.boundaryFormat h ph) (hr : Means kw.boundaryFormat r pr)
    (nh : Neighbours kw.boundaryFormat h) (nr : Neighbours kw.boundaryFormat r)
    (qh : Paddable kw.boundaryFormat h) (qr : Paddable kw.boundaryFormat r)
    (hl : ph.length = pr.length) (a b : ℕ) (hm : BoundaryMoved ph pr a b) (k : ℕ)
    (hk : UsesWindow kw pr k) (hk1 : 1 ≤ k) (hk2 : k ≤ 255)
    (hfix : kw.lamprierFix = true) (hrp : kw.returnParts = false) (hom : kw.oneMinus = false) :
    Returns (windowDiff kw h r)
      (((2 * min (max a b - min a b) k : ℕ) : ℚ) / ((pr.length : ℚ) + 1 + k + 1)) := by
  have h1 := C62_fixed_formula kw hf h r ph pr hh hr nh nr qh qr hl k hk hk1 hk2 hfix hrp hom
  have hpl : (padded k ph).length = (padded k pr).length := by
    simp only [padded, List.length_append, hl]
  have hw : windows ((padded k pr).length + 1) k = pr.length + 1 + k := by
    rw [padded_length k hk1, windows]; omega
  have ha := lt_of_differ hl (show ph[a]? ≠ pr[a]? by rw [hm.leave.1, hm.leave.2]; decide)
  have hb := lt_of_differ hl (show ph[b]? ≠ pr[b]? by rw [hm.enter.1, hm.enter.2]; decide)
  rw [wdErrors_moved hpl (padded_moved k hk1 hl hm), hw, overOne_fixed (hl ▸ ha) (hl ▸ hb)] at h1
  exact h1

/-- C113: so with the fix a boundary `d` units from its place scores better than no boundary there if
and only if `2 * d < k`: a miss by half the window or more would better have been left out. -/
theorem C113_fixed_worth (kw : WinKw) (hf : WindowFormat kw.boundaryFormat) (h h' r : Seg)
    (ph ph' pr : List Bool) (hh : Means kw.boundaryFormat h ph)
    (hh' : Means kw.boundaryFormat h' ph') (hr : Means kw.boundaryFormat r pr)
    (nh : Neighbours kw.boundaryFormat h) (nh' : Neighbours kw.boundaryFormat h')
    (nr : Neighbours kw.boundaryFormat r) (qh : Paddable kw.boundaryFormat h)
    (qh' : Paddable kw.boundaryFormat h') (qr : Paddable kw.boundaryFormat r)
    (hl : ph.length = pr.length) (hl' : ph'.length = pr.length)
    (a b : ℕ) (hm : BoundaryMoved ph pr a b) (hi : DifferAt ph' pr b)
    (k : ℕ) (hk : UsesWindow kw pr k) (hk1 : 1 ≤ k) (hfix : kw.lamprierFix = true)
    (hrp : kw.returnParts = false) (hom : kw.oneMinus = false)
    (x x' : ℚ) (hx : Returns (windowDiff kw h r) x) (hx' : Returns (windowDiff kw h' r) x') :
    x < x' ↔ 2 * (max a b - min a b) < k := by
  have hk2 := ((C62_returns_iff kw hf h r ph pr hh hr nh nr qh qr hl k hk hk1 hfix hrp hom x).1 hx).1
  rw [returns_unique hx (C113_fixed_near_miss kw hf h r ph pr hh hr nh nr qh qr hl a b hm k hk hk1 hk2
      hfix hrp hom),
    returns_unique hx' (C113_fixed_one kw hf h' r ph' pr hh' hr nh' nr qh' qr hl' b hi k hk hk1 hk2
      hfix hrp hom), div_lt_div_iff_of_pos_right (by positivity), Nat.cast_lt]
  omega

/-! ## Cases -/

/-- A boundary missed in the middle, and at the end, of ten units. -/
example : Returns (windowDiff { windowSize := some 3 } (massSeg [10]) (massSeg [5, 5])) (3 / 7) ∧
    Returns (windowDiff { windowSize := some 3 } (massSeg [10]) (massSeg [9, 1])) (1 / 7) ∧
    Returns (pk { windowSize := some 3 } (massSeg [10]) (massSeg [5, 5])) (3 / 7) ∧
    Returns (windowDiff { windowSize := some 3, lamprierFix := true } (massSeg [10])
      (massSeg [5, 5])) (3 / 14) ∧
    Returns (windowDiff { windowSize := some 3, lamprierFix := true } (massSeg [10])
      (massSeg [9, 1])) (3 / 14) := by
  refine ⟨⟨.dec (3 / 7), by decide +kernel, rfl⟩, ⟨.dec (1 / 7), by decide +kernel, rfl⟩,
    ⟨.dec (3 / 7), by decide +kernel, rfl⟩, ⟨.dec (3 / 14), by decide +kernel, rfl⟩,
    ⟨.dec (3 / 14), by decide +kernel, rfl⟩⟩

/-- Misses by one and by two, against leaving the boundary out. -/
example : Returns (windowDiff { windowSize := some 3, lamprierFix := true } (massSeg [4, 6])
      (massSeg [5, 5])) (2 / 14) ∧
    Returns (windowDiff { windowSize := some 3, lamprierFix := true } (massSeg [3, 7])
      (massSeg [5, 5])) (4 / 14) := by
  refine ⟨⟨.dec (2 / 14), by decide +kernel, rfl⟩, ⟨.dec (4 / 14), by decide +kernel, rfl⟩⟩

/-- These are one difference, and moved boundaries. -/
example : DifferAt [false, false, false] [false, true, false] 1 ∧
    BoundaryMoved [true, false, false] [false, true, false] 0 1 ∧
    differing [true, false, false] [false, true, false] = {0, 1} := by
  refine ⟨⟨by decide, fun m hm => ?_⟩, ⟨by decide, by decide, fun m h0 h1 => ?_⟩, by decide⟩
  · rcases m with _ | _ | m
    · rfl
    · exact (hm rfl).elim
    · rfl
  · rcases m with _ | _ | m
    · exact (h0 rfl).elim
    · exact (h1 rfl).elim
    · rfl

/-- The bounds are reached: moving the boundary of the hypothesis by one changes WindowDiff and Pk by
two windows. -/
example : Returns (windowDiff { windowSize := some 2 } (massSeg [4, 6]) (massSeg [5, 5])) (2 / 8) ∧
    Returns (windowDiff { windowSize := some 2 } (massSeg [5, 5]) (massSeg [5, 5])) 0 ∧
    Returns (pk { windowSize := some 2 } (massSeg [4, 6]) (massSeg [5, 5])) (2 / 8) ∧
    Returns (pk { windowSize := some 2 } (massSeg [5, 5]) (massSeg [5, 5])) 0 := by
  refine ⟨⟨.dec (2 / 8), by decide +kernel, rfl⟩, ⟨.dec 0, by decide +kernel, rfl⟩,
    ⟨.dec (2 / 8), by decide +kernel, rfl⟩, ⟨.dec 0, by decide +kernel, rfl⟩⟩

end SegEval.Props
