import Verif.Props.Window

/-!
# C26–C32, C60–C62: Pk and WindowDiff
-/

namespace SegEval.Props

open SegEval Spec

theorem pkOut_returns (kw : WinKw) (hrp : kw.returnParts = false) (s m : ℤ) (hs : m ≤ 0 → s = 0) :
    Returns (pkOut kw s m) (if kw.oneMinus then 1 - (s : ℚ) / m else (s : ℚ) / m) := by
  unfold pkOut
  rw [hrp]
  simp only [Bool.false_eq_true, if_false]
  by_cases hm : 0 < m
  · rw [if_pos hm]; exact ⟨_, rfl, rfl⟩
  · rw [if_neg hm, hs (by omega)]
    cases kw.oneMinus
    · exact ⟨_, rfl, by simp [PyNum.val]⟩
    · exact ⟨_, rfl, by simp [PyNum.val]⟩

theorem returns_unique {r : Py MetricOut} {x y : ℚ} (h : Returns r x) (h' : Returns r y) : x = y := by
  obtain ⟨v, h1, rfl⟩ := h
  obtain ⟨v', h2, rfl⟩ := h'
  rw [h1] at h2
  simp only [Except.ok.injEq, MetricOut.num.injEq] at h2
  rw [h2]

theorem returns_noParts_pk {kw : WinKw} {h r : Seg} {x : ℚ} (hx : Returns (pk kw h r) x) :
    kw.returnParts = false := by
  obtain ⟨v, hv, _⟩ := hx
  obtain ⟨th, lh, tr, lr, w, s, h1, h2, h3, h4⟩ := pk_inv hv
  cases hr : kw.returnParts with
  | false => rfl
  | true => rw [pkOut, if_pos hr] at h4; cases h4

theorem frac_range (s d : ℚ) (h0 : 0 ≤ s) (h1 : s ≤ d) : 0 ≤ s / d ∧ s / d ≤ 1 := by
  have hd : 0 ≤ d := h0.trans h1
  exact ⟨div_nonneg h0 hd, div_le_one_of_le₀ h1 hd⟩

/-! ## C26: Pk -/

/-- C26: Pk is in `[0, 1]`, with or without `one_minus`, for every window size. -/
theorem C26_range (kw : WinKw) (h r : Seg) (x : ℚ) (hx : Returns (pk kw h r) x) :
    0 ≤ x ∧ x ≤ 1 := by
  have hrp := returns_noParts_pk hx
  obtain ⟨v, hv, rfl⟩ := id hx
  obtain ⟨th, lh, tr, lr, w, s, h1, h2, h3, h4⟩ := pk_inv hv
  have hb := pkDifferences_bounds h3
  have hret := pkOut_returns kw hrp s (((lr.length : ℤ) - w).toNat : ℤ) (fun hm => by omega)
  rw [pk_eq h1 h2 h3] at hx
  rw [returns_unique hx hret]
  have := frac_range (s : ℚ) ((((lr.length : ℤ) - w).toNat : ℤ) : ℚ)
    (by exact_mod_cast hb.1) (by exact_mod_cast hb.2)
  split
  · constructor <;> linarith [this.1, this.2]
  · exact this

/-- C26: Pk raises nothing for a window of any natural size. -/
theorem C26_total (kw : WinKw) (hf : WindowFormat kw.boundaryFormat) (h r : Seg)
    (ph pr : List Bool) (hh : Means kw.boundaryFormat h ph) (hr : Means kw.boundaryFormat r pr)
    (hl : ph.length = pr.length) (k : ℕ) (hk : UsesWindow kw pr k) : ∃ out, pk kw h r = .ok out := by
  obtain ⟨th, lh, R1, _, _, _⟩ := reads_of_means hf hh
  obtain ⟨tr, lr, R2, _, _, _⟩ := reads_of_means hf hr
  obtain ⟨s, hs⟩ := pkDifferences_total (h := lh) (r := lr) (by rw [R2.len, R1.len, hl]) k
  rw [pk_eq (positionsChecked_ok R1 R2 hl)
    (effectiveWindow_spec R2.ne_nil (by rw [R2.pat]; exact hk)) hs]
  unfold pkOut
  split
  · exact ⟨_, rfl⟩
  · split
    · exact ⟨_, rfl⟩
    · split <;> exact ⟨_, rfl⟩

/-- C26: whenever `pk(s, s)` returns, it is 0 (1 with `one_minus`). -/
theorem C26_self (kw : WinKw) (s : Seg) (x : ℚ) (hx : Returns (pk kw s s) x) :
    x = if kw.oneMinus then 1 else 0 := by
  have hrp := returns_noParts_pk hx
  obtain ⟨v, hv, rfl⟩ := id hx
  obtain ⟨th, lh, tr, lr, w, s', h1, h2, h3, h4⟩ := pk_inv hv
  obtain ⟨hl, e1, e2⟩ := positionsChecked_length h1
  rw [e1] at e2
  simp only [Except.ok.injEq, Prod.mk.injEq] at e2
  obtain ⟨rfl, rfl⟩ := e2
  have h0 := pkDifferences_self h3
  subst h0
  have hret := pkOut_returns kw hrp 0 (((lh.length : ℤ) - w).toNat : ℤ) (fun _ => rfl)
  rw [pk_eq h1 h2 h3] at hx
  rw [returns_unique hx hret]
  simp

/-- C26: `pk(s, s)` is 0 for every segmentation and natural window size. -/
theorem C26_self_zero (kw : WinKw) (hf : WindowFormat kw.boundaryFormat) (s : Seg) (p : List Bool)
    (hs : Means kw.boundaryFormat s p) (k : ℕ) (hk : UsesWindow kw p k)
    (hrp : kw.returnParts = false) : Returns (pk kw s s) (if kw.oneMinus then 1 else 0) := by
  obtain ⟨th, lh, R, _, _, _⟩ := reads_of_means hf hs
  obtain ⟨s', hs'⟩ := pkDifferences_total (h := lh) (r := lh) rfl k
  have h0 := pkDifferences_self hs'
  subst h0
  rw [pk_eq (positionsChecked_ok R R rfl)
    (effectiveWindow_spec R.ne_nil (by rw [R.pat]; exact hk)) hs']
  have hret := pkOut_returns kw hrp 0 (((lh.length : ℤ) - k).toNat : ℤ) (fun _ => rfl)
  simpa using hret

example : pk {} (massSeg [2, 3, 6]) (massSeg [2, 3, 6]) = .ok (.num (.dec 0)) ∧
    pk { windowSize := some 20 } (massSeg [2, 3, 6]) (massSeg [2, 9]) = .ok (.num (.int 0)) ∧
    pk { windowSize := some (-1) } (massSeg [2, 3, 6]) (massSeg [2, 3, 6]) =
      .error .indexError := by decide +kernel

/-! ## C27: WindowDiff -/

theorem wdOut_ok {kw : WinKw} {s d : ℤ} {out : MetricOut} (h : wdOut kw s d = .ok out) :
    d ≠ 0 ∧ (s : ℚ) / d ≤ 1 ∧ out = if kw.oneMinus then .num (.dec (1 - (s : ℚ) / d))
      else if kw.returnParts then .parts (.int s) (.int d) else .num (.dec ((s : ℚ) / d)) := by
  unfold wdOut at h
  by_cases hd : d = 0
  · rw [if_pos hd] at h; split at h <;> cases h
  · rw [if_neg hd] at h
    by_cases h1 : (s : ℚ) / d ≤ 1
    · rw [if_neg (not_not.2 h1)] at h
      refine ⟨hd, h1, ?_⟩
      cases ho : kw.oneMinus <;> cases hr : kw.returnParts <;> simp [ho, hr] at h ⊢ <;> exact h.symm
    · rw [if_pos h1] at h; cases h

theorem wdOut_total (kw : WinKw) (s d : ℤ) (hd : d ≠ 0) (h : (s : ℚ) / d ≤ 1) :
    wdOut kw s d = .ok (if kw.oneMinus then .num (.dec (1 - (s : ℚ) / d))
      else if kw.returnParts then .parts (.int s) (.int d) else .num (.dec ((s : ℚ) / d))) := by
  unfold wdOut
  rw [if_neg hd, if_neg (not_not.2 h)]
  cases kw.oneMinus <;> cases kw.returnParts <;> simp

theorem zip_units_length (fix : Bool) (w : ℤ) {a b : List Obj} (h : a.length = b.length) :
    ((unitsOf fix w a).zip (unitsOf fix w b)).length = (unitsOf fix w a).length := by
  rw [List.length_zip, unitsOf_length fix w h, min_self]

/-- C27: WindowDiff is in `[0, 1]`, for every window size, with or without the fix. -/
theorem C27_range (kw : WinKw) (h r : Seg) (x : ℚ) (hx : Returns (windowDiff kw h r) x) :
    0 ≤ x ∧ x ≤ 1 := by
  obtain ⟨v, hv, rfl⟩ := hx
  obtain ⟨th, lh, tr, lr, w, s, h1, h2, hl, hf, h3, h4⟩ := wd_inv hv
  have hb := sumDifferences_bounds h3
  rw [zip_units_length _ _ hl] at hb
  obtain ⟨hd, hle, hout⟩ := wdOut_ok h4
  have hnn : 0 ≤ (s : ℚ) / (wdDen kw.lamprierFix (unitsOf kw.lamprierFix w lr).length w : ℤ) := by
    by_cases hpos : (unitsOf kw.lamprierFix w lr).length ≤ w
    · have : s = 0 := by omega
      rw [this]; simp
    · refine div_nonneg (by exact_mod_cast hb.1) ?_
      have : 0 ≤ wdDen kw.lamprierFix (unitsOf kw.lamprierFix w lr).length w := by
        unfold wdDen; split <;> omega
      exact_mod_cast this
  cases ho : kw.oneMinus with
  | true =>
    rw [ho, if_pos rfl] at hout
    simp only [MetricOut.num.injEq] at hout
    subst hout
    show 0 ≤ _ ∧ _ ≤ 1
    simp only [PyNum.val]
    constructor <;> linarith
  | false =>
    rw [ho] at hout
    simp only [Bool.false_eq_true, if_false] at hout
    split at hout
    · cases hout
    · simp only [MetricOut.num.injEq] at hout
      subst hout
      exact ⟨hnn, hle⟩

/-- C27: whenever `window_diff(s, s)` returns, it is 0 (1 with `one_minus`). -/
theorem C27_self (kw : WinKw) (s : Seg) (x : ℚ) (hx : Returns (windowDiff kw s s) x) :
    x = if kw.oneMinus then 1 else 0 := by
  obtain ⟨v, hv, rfl⟩ := hx
  obtain ⟨th, lh, tr, lr, w, s', h1, h2, hl, hf, h3, h4⟩ := wd_inv hv
  obtain ⟨_, e1, e2⟩ := positionsChecked_length h1
  rw [e1] at e2
  simp only [Except.ok.injEq, Prod.mk.injEq] at e2
  obtain ⟨rfl, rfl⟩ := e2
  have h0 := sumDifferences_self h3
  subst h0
  obtain ⟨hd, hle, hout⟩ := wdOut_ok h4
  cases ho : kw.oneMinus with
  | true =>
    rw [ho, if_pos rfl] at hout
    simp only [MetricOut.num.injEq] at hout
    subst hout
    simp [PyNum.val]
  | false =>
    rw [ho] at hout
    simp only [Bool.false_eq_true, if_false] at hout
    split at hout
    · cases hout
    · simp only [MetricOut.num.injEq] at hout
      subst hout
      simp [PyNum.val]

example : windowDiff {} (massSeg [2, 3, 6]) (massSeg [2, 3, 6]) = .ok (.num (.dec 0)) ∧
    windowDiff { lamprierFix := true } (massSeg [2, 3, 6]) (massSeg [11]) =
      .ok (.num (.dec (9 / 18))) ∧
    windowDiff { windowSize := some 1 } (massSeg [1, 1, 1]) (massSeg [3]) =
      .ok (.num (.dec 1)) := by decide +kernel

/-! ## C60, C61, C62: the published formulas -/

/-- C60: Pk is the fraction of the probes `(i, i + k)` on which the segmentations disagree whether
the two units are in one segment. -/
theorem C60_pk_formula (kw : WinKw) (hf : WindowFormat kw.boundaryFormat) (h r : Seg)
    (ph pr : List Bool) (hh : Means kw.boundaryFormat h ph) (hr : Means kw.boundaryFormat r pr)
    (uh : Unrepeated kw.boundaryFormat h) (ur : Unrepeated kw.boundaryFormat r)
    (hl : ph.length = pr.length) (k : ℕ) (hk : UsesWindow kw pr k)
    (hrp : kw.returnParts = false) (hom : kw.oneMinus = false) :
    Returns (pk kw h r) (((pkErrors ph pr k).card : ℚ) / (windows (pr.length + 1) k : ℕ)) := by
  obtain ⟨th, lh, R1, _, U1, _⟩ := reads_of_means hf hh
  obtain ⟨tr, lr, R2, _, U2, _⟩ := reads_of_means hf hr
  have s1 := pkDifferences_eq (U1 uh) (U2 ur) (by rw [R2.len, R1.len, hl]) R2.ne_nil k
  have hb := pkDifferences_bounds s1
  rw [pk_eq (positionsChecked_ok R1 R2 hl)
    (effectiveWindow_spec R2.ne_nil (by rw [R2.pat]; exact hk)) s1]
  have hret := pkOut_returns kw hrp
    ((pkErrors (changes (lh.map Obj.val)) (changes (lr.map Obj.val)) k).card : ℤ)
    (((lr.length : ℤ) - k).toNat : ℤ) (fun hm => by omega)
  rw [hom] at hret
  simp only [Bool.false_eq_true, if_false] at hret
  have e : (((lr.length : ℤ) - k).toNat : ℤ) = ((windows (pr.length + 1) k : ℕ) : ℤ) := by
    rw [R2.len, windows]; omega
  rw [e] at hret ⊢
  rw [R1.pat, R2.pat] at hret ⊢
  simpa only [Int.cast_natCast] using hret

theorem wdErrors_card_le (ph pr : List Bool) (k : ℕ) :
    (wdErrors ph pr k).card ≤ windows (pr.length + 1) k := by
  unfold wdErrors
  exact (Finset.card_filter_le _ _).trans (by rw [Finset.card_range])

/-- C61: WindowDiff is the fraction of windows of `k + 1` units in which the segmentations have
different numbers of boundaries. -/
theorem C61_window_diff_formula (kw : WinKw) (hf : WindowFormat kw.boundaryFormat) (h r : Seg)
    (ph pr : List Bool) (hh : Means kw.boundaryFormat h ph) (hr : Means kw.boundaryFormat r pr)
    (nh : Neighbours kw.boundaryFormat h) (nr : Neighbours kw.boundaryFormat r)
    (hl : ph.length = pr.length) (k : ℕ) (hk : UsesWindow kw pr k) (hk2 : k ≤ 255)
    (hn : k < pr.length + 1) (hfix : kw.lamprierFix = false)
    (hrp : kw.returnParts = false) (hom : kw.oneMinus = false) :
    Returns (windowDiff kw h r)
      (((wdErrors ph pr k).card : ℚ) / (windows (pr.length + 1) k : ℕ)) := by
  obtain ⟨th, lh, R1, A1, _, _⟩ := reads_of_means hf hh
  obtain ⟨tr, lr, R2, A2, _, _⟩ := reads_of_means hf hr
  have hll : lr.length = lh.length := by rw [R2.len, R1.len, hl]
  have s1 := sumDifferences_eq (A1 nh) (A2 nr) hll R2.ne_nil k hk2
  rw [R1.pat, R2.pat] at s1
  have hu : ∀ l : List Obj, unitsOf kw.lamprierFix k l = l := by
    intro l; rw [unitsOf, hfix]; simp
  have e := wd_eq (kw := kw) (positionsChecked_ok R1 R2 hl)
    (effectiveWindow_spec R2.ne_nil (by rw [R2.pat]; exact hk)) hll
    (by rw [hfix]; intro hc; cases hc) (by rw [hu, hu]; exact s1)
  have ed : wdDen kw.lamprierFix (unitsOf kw.lamprierFix k lr).length k =
      ((windows (pr.length + 1) k : ℕ) : ℤ) := by
    rw [hu, wdDen, hfix, R2.len, windows]; simp; omega
  rw [ed] at e
  have hpos : 0 < windows (pr.length + 1) k := by unfold windows; omega
  rw [e, wdOut_total _ _ _ (by omega)]
  · rw [hom, hrp]
    simp only [Bool.false_eq_true, if_false]
    exact ⟨_, rfl, by simp [PyNum.val]⟩
  · refine (frac_range _ _ ?_ ?_).2
    · exact_mod_cast Nat.zero_le _
    · exact_mod_cast wdErrors_card_le ph pr k

/-- C62: with the fix, the windows also range over `k` phantom units on each side, and the
denominator is `n + k + 1`. -/
theorem C62_fixed_formula (kw : WinKw) (hf : WindowFormat kw.boundaryFormat) (h r : Seg)
    (ph pr : List Bool) (hh : Means kw.boundaryFormat h ph) (hr : Means kw.boundaryFormat r pr)
    (nh : Neighbours kw.boundaryFormat h) (nr : Neighbours kw.boundaryFormat r)
    (qh : Paddable kw.boundaryFormat h) (qr : Paddable kw.boundaryFormat r)
    (hl : ph.length = pr.length) (k : ℕ) (hk : UsesWindow kw pr k) (hk1 : 1 ≤ k) (hk2 : k ≤ 255)
    (hfix : kw.lamprierFix = true) (hrp : kw.returnParts = false) (hom : kw.oneMinus = false) :
    Returns (windowDiff kw h r)
      (((wdErrors (padded k ph) (padded k pr) k).card : ℚ) / ((pr.length : ℚ) + 1 + k + 1)) := by
  obtain ⟨th, lh, R1, A1, _, P1⟩ := reads_of_means hf hh
  obtain ⟨tr, lr, R2, A2, _, P2⟩ := reads_of_means hf hr
  have hll : lr.length = lh.length := by rw [R2.len, R1.len, hl]
  have s1 := sumDifferences_eq (unitsOf_adj (A1 nh) true k) (unitsOf_adj (A2 nr) true k)
    (unitsOf_length _ _ hll) (unitsOf_ne_nil R2.ne_nil _ _) k hk2
  rw [unitsOf_changes R1.ne_nil (P1 qh).2.1 (P1 qh).2.2 k hk1,
    unitsOf_changes R2.ne_nil (P2 qr).2.1 (P2 qr).2.2 k hk1, R1.pat, R2.pat] at s1
  have e := wd_eq (kw := kw) (positionsChecked_ok R1 R2 hl)
    (effectiveWindow_spec R2.ne_nil (by rw [R2.pat]; exact hk)) hll
    (fun _ => ⟨(P2 qr).1, (P1 qh).1⟩) (by rw [hfix]; exact s1)
  have ed : wdDen kw.lamprierFix (unitsOf kw.lamprierFix k lr).length k =
      ((pr.length + 1 + k + 1 : ℕ) : ℤ) := by
    rw [hfix, unitsOf_len k hk1, wdDen, if_pos rfl, R2.len]; push_cast; omega
  rw [ed] at e
  rw [e, wdOut_total _ _ _ (by omega)]
  · rw [hom, hrp]
    simp only [Bool.false_eq_true, if_false]
    exact ⟨_, rfl, by simp [PyNum.val]⟩
  · refine (frac_range _ _ ?_ ?_).2
    · exact_mod_cast Nat.zero_le _
    · have h1 := wdErrors_card_le (padded k ph) (padded k pr) k
      rw [windows, padded_length k hk1] at h1
      have : (wdErrors (padded k ph) (padded k pr) k).card ≤ pr.length + 1 + k + 1 := by omega
      exact_mod_cast this

/-- One document of 11 units; the window is 2. -/
example : Means .mass (massSeg [2, 3, 6]) (massPat [2, 3, 6]) ∧
    UsesWindow {} (massPat [2, 2, 7]) (2 : ℕ) ∧
    (pkErrors (massPat [2, 3, 6]) (massPat [2, 2, 7]) 2).card = 2 ∧
    (wdErrors (massPat [2, 3, 6]) (massPat [2, 2, 7]) 2).card = 2 ∧
    pk {} (massSeg [2, 3, 6]) (massSeg [2, 2, 7]) = .ok (.num (.dec (2 / 9))) ∧
    windowDiff {} (massSeg [2, 3, 6]) (massSeg [2, 2, 7]) = .ok (.num (.dec (2 / 9))) := by
  refine ⟨massSeg_means _ (by simp) (by decide), ?_, by decide +kernel, by decide +kernel,
    by decide +kernel, by decide +kernel⟩
  show ((2 : ℕ) : ℤ) = max 2 (roundHalfEven _)
  decide +kernel

/-! ## C28: Pk and WindowDiff -/

theorem pkErrors_subset (ph pr : List Bool) (k : ℕ) : pkErrors ph pr k ⊆ wdErrors ph pr k := by
  intro i hi
  unfold pkErrors at hi
  unfold wdErrors
  rw [Finset.mem_filter] at hi ⊢
  refine ⟨hi.1, fun hc => hi.2 ?_⟩
  rw [hc]

theorem pk_negative {h r : List Obj} {s : ℤ} (hs : pkDifferences h r (-1) = .ok s) : False := by
  have hrange : ∃ rest, pyRange ((r.length : ℤ) - -1) = 0 :: rest := by
    rw [pyRange, show ((r.length : ℤ) - -1).toNat = r.length + 1 from by omega,
      List.range_succ_eq_map]
    exact ⟨_, rfl⟩
  obtain ⟨rest, hrest⟩ := hrange
  have hsl : pySlice r ((0 : ℕ) : ℤ) (((0 : ℕ) : ℤ) + -1 + 1) = [] := by
    simp [pySlice, pyClamp]
  rw [pkDifferences, hrest, forLoop, pkStep, hsl] at hs
  cases hs

/-- C28: for one window size, Pk is at most WindowDiff (labels not reused). -/
theorem C28_pk_le_window_diff (kw : WinKw) (hf : WindowFormat kw.boundaryFormat) (h r : Seg)
    (ph pr : List Bool) (hh : Means kw.boundaryFormat h ph) (hr : Means kw.boundaryFormat r pr)
    (uh : Unrepeated kw.boundaryFormat h) (ur : Unrepeated kw.boundaryFormat r)
    (hfix : kw.lamprierFix = false) (hom : kw.oneMinus = false) (x y : ℚ)
    (hx : Returns (pk kw h r) x) (hy : Returns (windowDiff kw h r) y) : x ≤ y := by
  have hrp := returns_noParts_pk hx
  obtain ⟨th, lh, R1, _, U1, _⟩ := reads_of_means hf hh
  obtain ⟨tr, lr, R2, _, U2, _⟩ := reads_of_means hf hr
  have h0y := C27_range kw h r y hy
  obtain ⟨v, hv, rfl⟩ := id hx
  obtain ⟨th', lh', tr', lr', w, s, h1, h2, h3, h4⟩ := pk_inv hv
  obtain ⟨hl, e1, e2⟩ := positionsChecked_length h1
  rw [R1.pos] at e1
  rw [R2.pos] at e2
  simp only [Except.ok.injEq, Prod.mk.injEq] at e1 e2
  obtain ⟨rfl, rfl⟩ := e1
  obtain ⟨rfl, rfl⟩ := e2
  simp only at hl
  have hlp : ph.length = pr.length := by have := R1.len; have := R2.len; omega
  obtain ⟨v', hv', rfl⟩ := id hy
  obtain ⟨_, lh', _, lr', w', s', h1', h2', _, _, h3', h4'⟩ := wd_inv hv'
  rw [h1] at h1'
  simp only [Except.ok.injEq, Prod.mk.injEq] at h1'
  obtain ⟨⟨rfl, rfl⟩, ⟨rfl, rfl⟩⟩ := h1'
  rw [h2] at h2'
  simp only [Except.ok.injEq] at h2'
  subst h2'
  have hu : ∀ l : List Obj, unitsOf kw.lamprierFix w l = l := by
    intro l; rw [unitsOf, hfix]; simp
  rw [hu, hu] at h3'
  have hz : (lr.zip lh).length = lr.length := by rw [List.length_zip, hl, min_self]
  by_cases hw0 : 0 ≤ w
  · obtain ⟨k, rfl⟩ : ∃ k : ℕ, w = k := ⟨w.toNat, by omega⟩
    have hk : UsesWindow kw pr k := by
      have := effectiveWindow_uses R2.ne_nil h2
      rwa [R2.pat] at this
    by_cases hn : k < pr.length + 1
    · by_cases hk2 : k ≤ 255
      · have f1 := C60_pk_formula kw hf h r ph pr hh hr uh ur hlp k hk hrp hom
        have s1 := sumDifferences_eq (unrep_adj (U1 uh)) (unrep_adj (U2 ur)) hl R2.ne_nil k hk2
        rw [R1.pat, R2.pat, h3'] at s1
        simp only [Except.ok.injEq] at s1
        obtain ⟨hd, hle, hout⟩ := wdOut_ok h4'
        rw [hom, hrp] at hout
        simp only [Bool.false_eq_true, if_false, MetricOut.num.injEq] at hout
        have ed : wdDen kw.lamprierFix (unitsOf kw.lamprierFix k lr).length k =
            ((windows (pr.length + 1) k : ℕ) : ℤ) := by
          rw [hu, wdDen, hfix, R2.len, windows]; simp; omega
        rw [returns_unique hx f1, hout, ed, s1]
        simp only [PyNum.val, Int.cast_natCast]
        have hc := Finset.card_le_card (pkErrors_subset ph pr k)
        exact div_le_div_of_nonneg_right (by exact_mod_cast hc) (Nat.cast_nonneg _)
      · rw [sumDifferences_assert _ _ (by rw [hz, R2.len]; omega) (.inl (by omega))] at h3'
        cases h3'
    · have hb := pkDifferences_bounds h3
      have hlr := R2.len
      have hm : (((lr.length : ℤ) - k).toNat : ℤ) = 0 := by omega
      have hret := pkOut_returns kw hrp s (((lr.length : ℤ) - k).toNat : ℤ) (fun _ => by omega)
      rw [pk_eq h1 h2 h3] at hx
      rw [returns_unique hx hret, hom, hm]
      simpa using h0y.1
  · by_cases hw1 : w = -1
    · subst hw1; exact (pk_negative h3).elim
    · rw [sumDifferences_assert _ _ (by rw [hz]; omega) (.inr (by omega))] at h3'
      cases h3'

example : pk {} (massSeg [3, 1, 5]) (massSeg [4, 5]) = .ok (.num (.dec (1 / 7))) ∧
    windowDiff {} (massSeg [3, 1, 5]) (massSeg [4, 5]) = .ok (.num (.dec (2 / 7))) := by
  decide +kernel

/-! ## C29, C30: when WindowDiff is defined -/

/-- C29, for windows up to 255: WindowDiff returns whenever the window is smaller than the
document. -/
theorem C29_small_windows_partial (kw : WinKw) (hf : WindowFormat kw.boundaryFormat) (h r : Seg)
    (ph pr : List Bool) (hh : Means kw.boundaryFormat h ph) (hr : Means kw.boundaryFormat r pr)
    (hp : kw.lamprierFix = true → Paddable kw.boundaryFormat h ∧ Paddable kw.boundaryFormat r)
    (hl : ph.length = pr.length) (k : ℕ) (hk : UsesWindow kw pr k) (hk2 : k ≤ 255)
    (hn : k < pr.length + 1) : ∃ out, windowDiff kw h r = .ok out := by
  obtain ⟨th, lh, R1, _, _, P1⟩ := reads_of_means hf hh
  obtain ⟨tr, lr, R2, _, _, P2⟩ := reads_of_means hf hr
  have hll : lr.length = lh.length := by rw [R2.len, R1.len, hl]
  obtain ⟨s, hs⟩ := sumDifferences_total
    ((unitsOf kw.lamprierFix k lr).zip (unitsOf kw.lamprierFix k lh)) k hk2
  have hb := sumDifferences_bounds hs
  rw [zip_units_length _ _ hll] at hb
  rw [wd_eq (positionsChecked_ok R1 R2 hl)
    (effectiveWindow_spec R2.ne_nil (by rw [R2.pat]; exact hk)) hll
    (fun hx => ⟨(P2 (hp hx).2).1, (P1 (hp hx).1).1⟩) hs]
  have hlen : k < (unitsOf kw.lamprierFix k lr).length := by
    have := R2.len
    unfold unitsOf
    split
    · simp only [List.length_append]; omega
    · omega
  rw [wdOut_total]
  · exact ⟨_, rfl⟩
  · unfold wdDen; split <;> omega
  · refine (frac_range _ _ ?_ ?_).2
    · exact_mod_cast hb.1
    · have : s ≤ wdDen kw.lamprierFix (unitsOf kw.lamprierFix k lr).length k := by
        unfold wdDen; split <;> omega
      exact_mod_cast this

/-- C29 refuted: every window size from 256 up to the document size (with the fix: every window size
from 256) is an `AssertionError`, even for identical segmentations. -/
theorem C29_large_windows (kw : WinKw) (hf : WindowFormat kw.boundaryFormat) (h r : Seg)
    (ph pr : List Bool) (hh : Means kw.boundaryFormat h ph) (hr : Means kw.boundaryFormat r pr)
    (hp : kw.lamprierFix = true → Paddable kw.boundaryFormat h ∧ Paddable kw.boundaryFormat r)
    (hl : ph.length = pr.length) (k : ℕ) (hk : UsesWindow kw pr k) (hk2 : 256 ≤ k)
    (hn : kw.lamprierFix = true ∨ k < pr.length + 1) :
    windowDiff kw h r = .error .assertionError := by
  obtain ⟨th, lh, R1, _, _, P1⟩ := reads_of_means hf hh
  obtain ⟨tr, lr, R2, _, _, P2⟩ := reads_of_means hf hr
  have hll : lr.length = lh.length := by rw [R2.len, R1.len, hl]
  have hlen : k < (unitsOf kw.lamprierFix k lr).length := by
    have := R2.len
    by_cases hx : kw.lamprierFix = true
    · rw [hx, unitsOf_len k (by omega)]; omega
    · rcases hn with hn | hn
      · exact absurd hn hx
      · rw [Bool.not_eq_true] at hx
        rw [hx, unitsOf]
        simp only [Bool.false_eq_true, if_false]
        omega
  exact wd_err (positionsChecked_ok R1 R2 hl)
    (effectiveWindow_spec R2.ne_nil (by rw [R2.pat]; exact hk))
    (fun hx => ⟨(P2 (hp hx).2).1, (P1 (hp hx).1).1⟩)
    (sumDifferences_assert _ _ (by rw [zip_units_length _ _ hll]; omega) (.inl (by omega)))

/-- A document of 1000 units with one boundary and itself, window 300. -/
example : windowDiff { windowSize := some 300 } (massSeg [400, 600]) (massSeg [400, 600]) =
    .error .assertionError :=
  C29_large_windows { windowSize := some 300 } (.inl rfl) _ _ _ _
    (massSeg_means _ (by simp) (by decide)) (massSeg_means _ (by simp) (by decide))
    (fun h => by cases h) rfl 300 rfl (by omega) (.inr (by decide +kernel))

example : UsesWindow { windowSize := some 200 } (massPat [400, 600]) (200 : ℕ) := rfl

theorem roundHalfEven_le (q : ℚ) : (roundHalfEven q : ℚ) ≤ q + 1 / 2 := by
  have := abs_le.1 (C25_round_nearest q)
  linarith [this.2]

/-- The default window of a document of at least 3 units is smaller than the document. -/
theorem default_window_lt (kw : WinKw) (hw : kw.windowSize = none)
    (hrnd : kw.fncRound = roundHalfEven) (pr : List Bool) (k : ℕ) (hk : UsesWindow kw pr k) :
    2 ≤ k ∧ (2 * k ≤ pr.length + 2 ∨ k = 2) := by
  unfold UsesWindow at hk
  rw [hw, hrnd] at hk
  simp only at hk
  set q : ℚ := ((pr.length : ℚ) + 1) / ((pr.count true : ℚ) + 1) / 2 with hq
  have hle : q ≤ ((pr.length : ℚ) + 1) / 2 := by
    rw [hq]
    refine div_le_div_of_nonneg_right ?_ (by norm_num)
    refine div_le_self (by positivity) ?_
    have : (0 : ℚ) ≤ (pr.count true : ℚ) := Nat.cast_nonneg _
    linarith
  have h1 := roundHalfEven_le q
  have h2 : (2 : ℚ) * (roundHalfEven q : ℚ) ≤ (pr.length : ℚ) + 2 := by linarith
  have h3 : 2 * roundHalfEven q ≤ (pr.length : ℤ) + 2 := by exact_mod_cast h2
  omega

/-- C30, exactly: with the default window, WindowDiff returns a value iff the document does not
have 2 units and the window is at most 255. -/
theorem C30_defined_partial (kw : WinKw) (hf : WindowFormat kw.boundaryFormat) (h r : Seg)
    (ph pr : List Bool) (hh : Means kw.boundaryFormat h ph) (hr : Means kw.boundaryFormat r pr)
    (hfix : kw.lamprierFix = false) (hl : ph.length = pr.length) (hw : kw.windowSize = none)
    (hrnd : kw.fncRound = roundHalfEven) (k : ℕ) (hk : UsesWindow kw pr k) :
    (∃ out, windowDiff kw h r = .ok out) ↔ pr.length + 1 ≠ 2 ∧ k ≤ 255 := by
  have hdef := default_window_lt kw hw hrnd pr k hk
  have hp : kw.lamprierFix = true → Paddable kw.boundaryFormat h ∧ Paddable kw.boundaryFormat r :=
    fun hx => by rw [hfix] at hx; cases hx
  by_cases hbig : 3 ≤ pr.length + 1
  · by_cases hk2 : k ≤ 255
    · exact ⟨fun _ => ⟨by omega, hk2⟩, fun _ => C29_small_windows_partial kw hf h r ph pr hh hr hp
        hl k hk hk2 (by omega)⟩
    · refine ⟨fun ⟨out, ho⟩ => ?_, fun hc => absurd hc.2 hk2⟩
      rw [C29_large_windows kw hf h r ph pr hh hr hp hl k hk (by omega) (.inr (by omega))] at ho
      cases ho
  · have hk2 : k = 2 := by omega
    subst hk2
    obtain ⟨th, lh, R1, _, _, P1⟩ := reads_of_means hf hh
    obtain ⟨tr, lr, R2, _, _, P2⟩ := reads_of_means hf hr
    have hll : lr.length = lh.length := by rw [R2.len, R1.len, hl]
    have hu : ∀ l : List Obj, unitsOf kw.lamprierFix (2 : ℕ) l = l := by
      intro l; rw [unitsOf, hfix]; simp
    have hz : (lr.zip lh).length = lr.length := by rw [List.length_zip, hll, min_self]
    have hlr := R2.len
    have e := wd_eq (kw := kw) (positionsChecked_ok R1 R2 hl)
      (effectiveWindow_spec R2.ne_nil (by rw [R2.pat]; exact hk)) hll
      (by rw [hfix]; intro hc; cases hc)
      (by rw [hu, hu]; exact sumDifferences_short _ _ (by rw [hz]; omega))
    have ed : wdDen kw.lamprierFix (unitsOf kw.lamprierFix (2 : ℕ) lr).length (2 : ℕ) =
        (lr.length : ℤ) - 2 := by
      rw [hu, wdDen, hfix]; simp
    rw [ed] at e
    rw [e]
    by_cases h2 : pr.length + 1 = 2
    · have : (lr.length : ℤ) - 2 = 0 := by omega
      rw [this]
      refine ⟨fun ⟨out, ho⟩ => ?_, fun hc => absurd h2 hc.1⟩
      unfold wdOut at ho
      simp at ho
    · refine ⟨fun _ => ⟨h2, by omega⟩, fun _ => ?_⟩
      rw [wdOut_total _ _ _ (by omega) (by simp)]
      exact ⟨_, rfl⟩

/-- C30 refuted: two units, with or without a boundary. -/
theorem C30_two_units : windowDiff {} (massSeg [1, 1]) (massSeg [2]) =
      .error .decimalInvalidOperation ∧
    windowDiff {} (massSeg [2]) (massSeg [2]) = .error .decimalInvalidOperation := by
  decide +kernel

/-- C30 refuted: a long document without boundaries, compared with itself. -/
theorem C30_long_document : windowDiff {} (massSeg [600]) (massSeg [600]) =
    .error .assertionError :=
  C29_large_windows {} (.inl rfl) _ _ _ _
    (massSeg_means _ (by simp) (by decide)) (massSeg_means _ (by simp) (by decide))
    (fun h => by cases h) rfl 300 (by show ((300 : ℕ) : ℤ) = max 2 (roundHalfEven _); decide +kernel)
    (by omega) (.inr (by decide +kernel))

example : windowDiff {} (massSeg [1]) (massSeg [1]) = .ok (.num (.dec 0)) ∧
    windowDiff {} (massSeg [1, 2]) (massSeg [3]) = .ok (.num (.dec 1)) := by decide +kernel

/-- C61 for every window size below the document's: if WindowDiff returns, the window is at most 255
and the value is the formula. -/
theorem C61_returns_iff (kw : WinKw) (hf : WindowFormat kw.boundaryFormat) (h r : Seg)
    (ph pr : List Bool) (hh : Means kw.boundaryFormat h ph) (hr : Means kw.boundaryFormat r pr)
    (nh : Neighbours kw.boundaryFormat h) (nr : Neighbours kw.boundaryFormat r)
    (hl : ph.length = pr.length) (k : ℕ) (hk : UsesWindow kw pr k)
    (hn : k < pr.length + 1) (hfix : kw.lamprierFix = false)
    (hrp : kw.returnParts = false) (hom : kw.oneMinus = false) (x : ℚ) :
    Returns (windowDiff kw h r) x ↔ k ≤ 255 ∧
      x = ((wdErrors ph pr k).card : ℚ) / (windows (pr.length + 1) k : ℕ) := by
  by_cases hk2 : k ≤ 255
  · have hform := C61_window_diff_formula kw hf h r ph pr hh hr nh nr hl k hk hk2 hn hfix hrp hom
    exact ⟨fun hx => ⟨hk2, returns_unique hx hform⟩, fun ⟨_, hx⟩ => hx ▸ hform⟩
  · refine ⟨fun ⟨v, hv, _⟩ => ?_, fun ⟨hc, _⟩ => absurd hc hk2⟩
    rw [C29_large_windows kw hf h r ph pr hh hr (fun hx => by rw [hfix] at hx; cases hx) hl k hk
      (by omega) (.inr hn)] at hv
    cases hv

/-- C62 for every positive window size: if WindowDiff with the fix returns, the window is at most 255
and the value is the formula. -/
theorem C62_returns_iff (kw : WinKw) (hf : WindowFormat kw.boundaryFormat) (h r : Seg)
    (ph pr : List Bool) (hh : Means kw.boundaryFormat h ph) (hr : Means kw.boundaryFormat r pr)
    (nh : Neighbours kw.boundaryFormat h) (nr : Neighbours kw.boundaryFormat r)
    (qh : Paddable kw.boundaryFormat h) (qr : Paddable kw.boundaryFormat r)
    (hl : ph.length = pr.length) (k : ℕ) (hk : UsesWindow kw pr k) (hk1 : 1 ≤ k)
    (hfix : kw.lamprierFix = true) (hrp : kw.returnParts = false) (hom : kw.oneMinus = false)
    (x : ℚ) :
    Returns (windowDiff kw h r) x ↔ k ≤ 255 ∧
      x = ((wdErrors (padded k ph) (padded k pr) k).card : ℚ) / ((pr.length : ℚ) + 1 + k + 1) := by
  by_cases hk2 : k ≤ 255
  · have hform := C62_fixed_formula kw hf h r ph pr hh hr nh nr qh qr hl k hk hk1 hk2 hfix hrp hom
    exact ⟨fun hx => ⟨hk2, returns_unique hx hform⟩, fun ⟨_, hx⟩ => hx ▸ hform⟩
  · refine ⟨fun ⟨v, hv, _⟩ => ?_, fun ⟨hc, _⟩ => absurd hc hk2⟩
    rw [C29_large_windows kw hf h r ph pr hh hr (fun _ => ⟨qh, qr⟩) hl k hk
      (by omega) (.inl hfix)] at hv
    cases hv

/-! ## C31: the fix -/

/-- C31: with the fix, the value is 0 exactly when the boundaries are the same. -/
theorem C31_zero_iff (kw : WinKw) (hf : WindowFormat kw.boundaryFormat) (h r : Seg)
    (ph pr : List Bool) (hh : Means kw.boundaryFormat h ph) (hr : Means kw.boundaryFormat r pr)
    (nh : Neighbours kw.boundaryFormat h) (nr : Neighbours kw.boundaryFormat r)
    (qh : Paddable kw.boundaryFormat h) (qr : Paddable kw.boundaryFormat r)
    (hl : ph.length = pr.length) (k : ℕ) (hk : UsesWindow kw pr k) (hk1 : 1 ≤ k) (hk2 : k ≤ 255)
    (hfix : kw.lamprierFix = true) (hrp : kw.returnParts = false) (hom : kw.oneMinus = false) :
    Returns (windowDiff kw h r) 0 ↔ ph = pr := by
  have hform := C62_fixed_formula kw hf h r ph pr hh hr nh nr qh qr hl k hk hk1 hk2 hfix hrp hom
  constructor
  · intro h0
    have h1 := returns_unique hform h0
    have hpos : ((pr.length : ℚ) + 1 + k + 1) ≠ 0 := by positivity
    have h2 : ((wdErrors (padded k ph) (padded k pr) k).card : ℚ) = 0 := by
      rcases div_eq_zero_iff.1 h1 with h2 | h2
      · exact h2
      · exact absurd h2 hpos
    have h3 : wdErrors (padded k ph) (padded k pr) k = ∅ := by
      rw [← Finset.card_eq_zero]; exact_mod_cast h2
    have hlen : (padded k ph).length = (padded k pr).length := by
      have a := padded_length k hk1 ph
      have b := padded_length k hk1 pr
      omega
    refine padded_inj (k := k) hl (windows_determine hlen k hk1
      (fun m hm => padded_pre k hk1 ph pr m hm) (fun i hi => ?_))
    by_contra hc
    have : i ∈ wdErrors (padded k ph) (padded k pr) k := by
      unfold wdErrors
      rw [Finset.mem_filter, Finset.mem_range, windows]
      exact ⟨by omega, hc⟩
    rw [h3] at this
    simp at this
  · rintro rfl
    have : wdErrors (padded k ph) (padded k ph) k = ∅ := by
      unfold wdErrors
      rw [Finset.filter_eq_empty_iff]
      intro i _ hc
      exact hc rfl
    rw [this] at hform
    simpa using hform

/-- C31 for every positive window size: whenever a value is returned, it is 0 exactly when the
boundaries are the same. -/
theorem C31_returns (kw : WinKw) (hf : WindowFormat kw.boundaryFormat) (h r : Seg)
    (ph pr : List Bool) (hh : Means kw.boundaryFormat h ph) (hr : Means kw.boundaryFormat r pr)
    (nh : Neighbours kw.boundaryFormat h) (nr : Neighbours kw.boundaryFormat r)
    (qh : Paddable kw.boundaryFormat h) (qr : Paddable kw.boundaryFormat r)
    (hl : ph.length = pr.length) (k : ℕ) (hk : UsesWindow kw pr k) (hk1 : 1 ≤ k)
    (hfix : kw.lamprierFix = true) (hom : kw.oneMinus = false) (x : ℚ)
    (hx : Returns (windowDiff kw h r) x) : x = 0 ↔ ph = pr := by
  have hrp : kw.returnParts = false := by
    by_contra hc
    rw [Bool.not_eq_false] at hc
    exact wd_parts_not_num hc hom hx
  have hk2 := ((C62_returns_iff kw hf h r ph pr hh hr nh nr qh qr hl k hk hk1 hfix hrp hom x).1 hx).1
  rw [← C31_zero_iff kw hf h r ph pr hh hr nh nr qh qr hl k hk hk1 hk2 hfix hrp hom]
  exact ⟨fun h0 => h0 ▸ hx, fun h0 => returns_unique hx h0⟩

/-- C31: without the fix, different segmentations can have value 0. -/
theorem C31_without_fix : windowDiff { windowSize := some 2 } (massSeg [1, 2, 2])
    (massSeg [2, 2, 1]) = .ok (.num (.dec 0)) ∧
    windowDiff { windowSize := some 2, lamprierFix := true } (massSeg [1, 2, 2])
      (massSeg [2, 2, 1]) = .ok (.num (.dec (1 / 4))) := by decide +kernel

/-- C31: labels in a list cannot be padded: `TypeError`. -/
example : windowDiff { boundaryFormat := .position, lamprierFix := true }
    (.ints false [⟨1, 0⟩, ⟨2, 0⟩]) (.ints false [⟨1, 0⟩, ⟨2, 0⟩]) = .error .typeError := by
  decide +kernel

/-- C31: label 0 at an end merges with the phantom units, so the same boundaries under other labels
get a positive value. -/
theorem C31_zero_label : windowDiff { boundaryFormat := .position, windowSize := some 2, lamprierFix := true }
    (labelSeg [0, 1, 1, 1]) (labelSeg [0, 1, 1, 1]) = .ok (.num (.dec 0)) ∧
    windowDiff { boundaryFormat := .position, windowSize := some 2, lamprierFix := true }
      (labelSeg [0, 1, 1, 1]) (labelSeg [7, 1, 1, 1]) ≠ .ok (.num (.dec 0)) := by decide +kernel

/-! ## C32: symmetry -/

theorem toPositions_error {fmt : BoundaryFormat} {a b : Seg} {e e' : PyErr}
    (h : toPositions fmt a = .error e) (h' : toPositions fmt b = .error e') : e = e' := by
  unfold toPositions at h h'
  cases fmt <;> cases a <;> cases b <;> simp_all

theorem positionsChecked_swap (fmt : BoundaryFormat) (a b : Seg) :
    positionsChecked fmt b a = (positionsChecked fmt a b).map Prod.swap := by
  unfold positionsChecked
  cases ha : toPositions fmt a with
  | error e =>
    cases hb : toPositions fmt b with
    | error e' => simp only; rw [toPositions_error ha hb]; rfl
    | ok y => rfl
  | ok x =>
    cases hb : toPositions fmt b with
    | error e' => rfl
    | ok y =>
      simp only
      by_cases hl : x.2.length = y.2.length
      · rw [if_neg (not_not.2 hl), if_neg (not_not.2 hl.symm)]; rfl
      · rw [if_pos hl, if_pos (Ne.symm hl)]; rfl

theorem pkStep_error_same {h r : List Obj} (hl : r.length = h.length) (w acc : ℤ) (i : ℕ) :
    pkStep h r w acc i = pkStep r h w acc i := by
  have hlen : (pySlice r i (i + w + 1)).length = (pySlice h i (i + w + 1)).length := by
    unfold pySlice; simp only [List.length_take, List.length_drop, hl]
  have key : ∀ a b : List Obj, a.length = b.length → ∀ e, endsAgree a = .error e →
      endsAgree b = .error e := by
    intro a b hab e he
    cases a with
    | nil =>
      have hb : b = [] := List.length_eq_zero_iff.1 (by rw [← hab]; rfl)
      rw [hb]; exact he
    | cons x xs =>
      have : endsAgree (x :: xs) = .ok (x.is ((x :: xs)[xs.length]'(by simp))) := by
        have h0 : pyGet (x :: xs) 0 = .ok x := by simp [pyGet]
        have h1 : pyGet (x :: xs) (-1) = .ok ((x :: xs)[xs.length]'(by simp)) := by
          unfold pyGet
          have e : ((if (-1 : ℤ) < 0 then (-1 : ℤ) + (((x :: xs).length : ℕ) : ℤ) else -1)) =
              (xs.length : ℤ) := by
            rw [if_pos (by omega), List.length_cons]; push_cast; omega
          simp only [e]
          rw [if_pos (by omega), Int.toNat_natCast, List.getElem?_eq_getElem (by simp)]
        rw [endsAgree, h0]
        simp only
        rw [h1]
      rw [this] at he; cases he
  unfold pkStep
  cases hr : endsAgree (pySlice r i (i + w + 1)) with
  | error e => rw [key _ _ hlen e hr]
  | ok x =>
    cases hh : endsAgree (pySlice h i (i + w + 1)) with
    | error e => rw [key _ _ hlen.symm e hh] at hr
    | ok y =>
      simp only
      by_cases hxy : x = y
      · subst hxy; rfl
      · rw [if_pos hxy, if_pos (Ne.symm hxy)]

/-- C32: Pk with an explicit window is symmetric, including errors. -/
theorem C32_pk_symmetric (kw : WinKw) (w : ℤ) (hw : kw.windowSize = some w) (a b : Seg) :
    pk kw a b = pk kw b a := by
  unfold pk
  rw [positionsChecked_swap kw.boundaryFormat a b]
  cases h : positionsChecked kw.boundaryFormat a b with
  | error e => rfl
  | ok p =>
    obtain ⟨⟨th, lh⟩, ⟨tr, lr⟩⟩ := p
    have hl := (positionsChecked_length h).1
    simp only at hl
    simp only [Except.map, Prod.swap, effectiveWindow, hw]
    have hd : pkDifferences lh lr w = pkDifferences lr lh w := by
      unfold pkDifferences
      rw [hl]
      exact forLoop_congr _ _ (fun s i _ => pkStep_error_same hl w s i)
    rw [hd, hl]

theorem isInt_comm (x y : ℤ) : isInt x y = isInt y x := by
  unfold isInt
  by_cases h : x = y
  · rw [h]
  · simp [h, Ne.symm h]

theorem windowDiffers_swap (u : List (Obj × Obj)) (w : ℤ) (i : ℕ) :
    windowDiffers (u.map Prod.swap) w i = windowDiffers u w i := by
  have hs : pySlice (u.map Prod.swap) i (i + w + 1) = (pySlice u i (i + w + 1)).map Prod.swap := by
    unfold pySlice; rw [List.length_map, List.map_take, List.map_drop]
  unfold windowDiffers
  simp only
  rw [hs, List.length_map, List.map_map, List.map_map]
  have e1 : (Prod.fst ∘ Prod.swap : Obj × Obj → Obj) = Prod.snd := rfl
  have e2 : (Prod.snd ∘ Prod.swap : Obj × Obj → Obj) = Prod.fst := rfl
  rw [e1, e2, isInt_comm (countChanges (List.map Prod.snd _) : ℤ)]

/-- C32: WindowDiff with an explicit window is symmetric, including errors. -/
theorem C32_window_diff_symmetric (kw : WinKw) (w : ℤ) (hw : kw.windowSize = some w) (a b : Seg) :
    windowDiff kw a b = windowDiff kw b a := by
  unfold windowDiff
  rw [positionsChecked_swap kw.boundaryFormat a b]
  cases h : positionsChecked kw.boundaryFormat a b with
  | error e => rfl
  | ok p =>
    obtain ⟨⟨th, lh⟩, ⟨tr, lr⟩⟩ := p
    have hl := (positionsChecked_length h).1
    simp only at hl
    simp only [Except.map, Prod.swap, effectiveWindow, hw]
    rw [createPairedWindow_eq, createPairedWindow_eq]
    simp only
    by_cases hc : kw.lamprierFix = true ∧ ¬ (tr = true ∧ th = true)
    · rw [if_pos hc, if_pos ⟨hc.1, fun hx => hc.2 hx.symm⟩]
    · rw [if_neg hc, if_neg (fun hx => hc ⟨hx.1, fun hy => hx.2 hy.symm⟩)]
      simp only
      have hsw : (unitsOf kw.lamprierFix w lh).zip (unitsOf kw.lamprierFix w lr) =
          ((unitsOf kw.lamprierFix w lr).zip (unitsOf kw.lamprierFix w lh)).map Prod.swap := by
        rw [List.zip_swap]
      have hsum : sumDifferences ((unitsOf kw.lamprierFix w lh).zip (unitsOf kw.lamprierFix w lr)) w =
          sumDifferences ((unitsOf kw.lamprierFix w lr).zip (unitsOf kw.lamprierFix w lh)) w := by
        rw [hsw]
        unfold sumDifferences
        rw [List.length_map]
        refine forLoop_congr _ _ (fun s i _ => ?_)
        unfold sumStep
        rw [windowDiffers_swap]
      rw [hsum, masses_sum, masses_sum, zip_units_length _ _ hl, zip_units_length _ _ hl.symm,
        unitsOf_length _ _ hl, hl]

/-- C32 needs the explicit window: the default one is the reference's. -/
theorem C32_default_window : pk {} (massSeg [1, 1, 1, 1, 1, 3]) (massSeg [8]) ≠
    pk {} (massSeg [8]) (massSeg [1, 1, 1, 1, 1, 3]) := by decide +kernel

example : pk { windowSize := some 3 } (massSeg [1, 1, 1, 1, 1, 3]) (massSeg [8]) =
      .ok (.num (.dec 1)) ∧
    windowDiff { windowSize := some 2 } (massSeg [1, 1, 1, 5]) (massSeg [2, 4, 2]) =
      .ok (.num (.dec (5 / 6))) := by decide +kernel

end SegEval.Props
