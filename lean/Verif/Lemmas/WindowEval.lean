import Verif.Lemmas.Window

namespace SegEval

open Spec

/-! ## The window metrics as formulas -/

/-- pk.py:56-63 from the sum to the result. -/
def pkOut (kw : WinKw) (s m : ℤ) : Py MetricOut :=
  if kw.returnParts then .ok (.parts (.int s) (.int m))
  else if 0 < m then .ok (.num (.dec (if kw.oneMinus then 1 - (s : ℚ) / m else (s : ℚ) / m)))
  else if kw.oneMinus then .ok (.num (.dec (1 - ((0 : ℤ) : ℚ)))) else .ok (.num (.int 0))

theorem pk_eq {kw : WinKw} {hyp ref : Seg} {th tr : Bool} {lh lr : List Obj} {w s : ℤ}
    (h1 : positionsChecked kw.boundaryFormat hyp ref = .ok ((th, lh), (tr, lr)))
    (h2 : effectiveWindow kw lr = .ok w) (h3 : pkDifferences lh lr w = .ok s) :
    pk kw hyp ref = pkOut kw s ((lr.length - w).toNat : ℤ) := by
  rw [pk, h1]
  simp only
  rw [h2]
  simp only
  rw [h3]
  simp only [pyRange, List.length_range]
  unfold pkOut
  by_cases hm : (0 : ℤ) < (((lr.length : ℤ) - w).toNat : ℤ)
  · have hne : ((((lr.length : ℤ) - w).toNat : ℤ) : ℚ) ≠ 0 := by exact_mod_cast hm.ne'
    rw [if_pos hm, PyNum.truediv, PyNum.decDiv, if_neg hne]
    simp only
    rw [if_pos hm, applyOneMinus_dec]
  · rw [if_neg hm]
    simp only
    rw [if_neg hm]
    rfl

theorem pk_inv {kw : WinKw} {hyp ref : Seg} {out : MetricOut} (h : pk kw hyp ref = .ok out) :
    ∃ th lh tr lr w s, positionsChecked kw.boundaryFormat hyp ref = .ok ((th, lh), (tr, lr)) ∧
      effectiveWindow kw lr = .ok w ∧ pkDifferences lh lr w = .ok s ∧
      pkOut kw s ((lr.length - w).toNat : ℤ) = .ok out := by
  have h' := h
  rw [pk] at h
  split at h
  · cases h
  · rename_i hyp' ref' h1
    obtain ⟨th, lh⟩ := hyp'
    obtain ⟨tr, lr⟩ := ref'
    split at h
    · cases h
    · rename_i w h2
      split at h
      · cases h
      · rename_i s h3
        refine ⟨th, lh, tr, lr, w, s, h1, h2, h3, ?_⟩
        rw [← pk_eq h1 h2 h3, h']

theorem pkDifferences_bounds {h r : List Obj} {w s : ℤ} (hs : pkDifferences h r w = .ok s) :
    0 ≤ s ∧ s ≤ ((r.length - w).toNat : ℤ) := by
  have := forLoop_bounds _ (fun acc i x hx => ?_) hs
  · simpa [pyRange] using this
  · rw [pkStep] at hx
    split at hx
    · cases hx
    · split at hx
      · cases hx
      · simp only [Except.ok.injEq] at hx
        subst hx
        split <;> omega

/-- What window_diff pairs up: the units, or the units with phantom units around. -/
def unitsOf (fix : Bool) (w : ℤ) (l : List Obj) : List Obj :=
  if fix then
    List.replicate (if w ≤ 0 then (1 : ℤ) else w).toNat ⟨0, 0⟩ ++ l ++
      List.replicate (if w ≤ 0 then (1 : ℤ) else w).toNat ⟨0, 0⟩
  else l

theorem createPairedWindow_eq (hyp ref : Bool × List Obj) (w : ℤ) (fix : Bool) :
    createPairedWindow hyp ref w fix =
      if fix = true ∧ ¬ (ref.1 = true ∧ hyp.1 = true) then .error .typeError
      else .ok ((unitsOf fix w ref.2).zip (unitsOf fix w hyp.2)) := by
  unfold createPairedWindow unitsOf
  cases fix
  · simp
  · by_cases h : ref.1 = true ∧ hyp.1 = true
    · simp [h.1, h.2]
    · have : (ref.1 && hyp.1) = false := by
        rw [← Bool.not_eq_true, Bool.and_eq_true]; exact h
      simp [this, h]

theorem unitsOf_length (fix : Bool) (w : ℤ) {a b : List Obj} (h : a.length = b.length) :
    (unitsOf fix w a).length = (unitsOf fix w b).length := by
  unfold unitsOf; split <;> simp [h]

/-- windowdiff.py:124-139 from the sum to the result. -/
def wdOut (kw : WinKw) (s d : ℤ) : Py MetricOut :=
  if d = 0 then
    if s = 0 then .error .decimalInvalidOperation else .error .decimalDivisionByZero
  else if ¬ (s : ℚ) / d ≤ 1 then .error .assertionError
  else if kw.oneMinus = false then
    if kw.returnParts then .ok (.parts (.int s) (.int d)) else .ok (.num (.dec ((s : ℚ) / d)))
  else .ok (.num (.dec (1 - (s : ℚ) / d)))

/-- The denominator of window_diff for `u` paired units. -/
def wdDen (fix : Bool) (u : ℕ) (w : ℤ) : ℤ := if fix then (u : ℤ) - w + 1 else (u : ℤ) - w

theorem wd_eq {kw : WinKw} {hyp ref : Seg} {th tr : Bool} {lh lr : List Obj} {w s : ℤ}
    (h1 : positionsChecked kw.boundaryFormat hyp ref = .ok ((th, lh), (tr, lr)))
    (h2 : effectiveWindow kw lr = .ok w) (hl : lr.length = lh.length)
    (hf : kw.lamprierFix = true → tr = true ∧ th = true)
    (h3 : sumDifferences ((unitsOf kw.lamprierFix w lr).zip (unitsOf kw.lamprierFix w lh)) w =
      .ok s) :
    windowDiff kw hyp ref =
      wdOut kw s (wdDen kw.lamprierFix (unitsOf kw.lamprierFix w lr).length w) := by
  rw [windowDiff, h1]
  simp only
  rw [h2]
  simp only
  rw [createPairedWindow_eq, if_neg (fun hc => hc.2 (hf hc.1))]
  simp only
  rw [h3]
  simp only
  have hz : ((unitsOf kw.lamprierFix w lr).zip (unitsOf kw.lamprierFix w lh)).length =
      (unitsOf kw.lamprierFix w lr).length := by
    rw [List.length_zip, unitsOf_length _ _ hl, min_self]
  have hden : (if kw.lamprierFix = true then
      (((unitsOf kw.lamprierFix w lr).zip (unitsOf kw.lamprierFix w lh)).length : ℤ) - w + 1
      else (convertPositionsToMasses lr).sum - w) =
      wdDen kw.lamprierFix (unitsOf kw.lamprierFix w lr).length w := by
    rw [hz, wdDen, masses_sum]
    cases hk : kw.lamprierFix
    · simp [unitsOf]
    · simp
  rw [hden, hz]
  unfold wdOut
  set d := wdDen kw.lamprierFix (unitsOf kw.lamprierFix w lr).length w with hd
  have hassert : d = ((unitsOf kw.lamprierFix w lr).length : ℤ) - w ∨ kw.lamprierFix = true := by
    rw [hd, wdDen]
    cases hk : kw.lamprierFix
    · simp
    · simp
  rw [PyNum.truediv, PyNum.decDiv]
  by_cases hd0 : d = 0
  · have : ((d : ℤ) : ℚ) = 0 := by exact_mod_cast hd0
    rw [if_pos this, if_pos hd0]
    by_cases hs : s = 0
    · have : ((s : ℤ) : ℚ) = 0 := by exact_mod_cast hs
      rw [if_pos this, if_pos hs]
    · have : ¬ ((s : ℤ) : ℚ) = 0 := by exact_mod_cast hs
      rw [if_neg this, if_neg hs]
  · have : ¬ ((d : ℤ) : ℚ) = 0 := by exact_mod_cast hd0
    rw [if_neg this, if_neg hd0]
    simp only
    rw [if_neg (not_not.2 hassert)]
    simp only [PyNum.val]
    rfl

theorem wd_type {kw : WinKw} {hyp ref : Seg} {th tr : Bool} {lh lr : List Obj} {w : ℤ}
    (h1 : positionsChecked kw.boundaryFormat hyp ref = .ok ((th, lh), (tr, lr)))
    (h2 : effectiveWindow kw lr = .ok w)
    (hf : kw.lamprierFix = true) (ht : ¬ (tr = true ∧ th = true)) :
    windowDiff kw hyp ref = .error .typeError := by
  rw [windowDiff, h1]
  simp only
  rw [h2]
  simp only
  rw [createPairedWindow_eq, if_pos ⟨hf, ht⟩]

theorem wd_err {kw : WinKw} {hyp ref : Seg} {th tr : Bool} {lh lr : List Obj} {w : ℤ} {e : PyErr}
    (h1 : positionsChecked kw.boundaryFormat hyp ref = .ok ((th, lh), (tr, lr)))
    (h2 : effectiveWindow kw lr = .ok w)
    (hf : kw.lamprierFix = true → tr = true ∧ th = true)
    (h3 : sumDifferences ((unitsOf kw.lamprierFix w lr).zip (unitsOf kw.lamprierFix w lh)) w =
      .error e) : windowDiff kw hyp ref = .error e := by
  rw [windowDiff, h1]
  simp only
  rw [h2]
  simp only
  rw [createPairedWindow_eq, if_neg (fun hc => hc.2 (hf hc.1))]
  simp only
  rw [h3]

theorem positionsChecked_length {fmt : BoundaryFormat} {hyp ref : Seg} {h r : Bool × List Obj}
    (h1 : positionsChecked fmt hyp ref = .ok (h, r)) : r.2.length = h.2.length ∧
    toPositions fmt hyp = .ok h ∧ toPositions fmt ref = .ok r := by
  rw [positionsChecked] at h1
  split at h1
  · cases h1
  · rename_i r' hr
    split at h1
    · cases h1
    · rename_i h' hh
      split at h1
      · cases h1
      · rename_i hne
        simp only [Except.ok.injEq, Prod.mk.injEq] at h1
        obtain ⟨rfl, rfl⟩ := h1
        exact ⟨not_not.1 hne, hh, hr⟩

theorem wd_inv {kw : WinKw} {hyp ref : Seg} {out : MetricOut} (h : windowDiff kw hyp ref = .ok out) :
    ∃ th lh tr lr w s, positionsChecked kw.boundaryFormat hyp ref = .ok ((th, lh), (tr, lr)) ∧
      effectiveWindow kw lr = .ok w ∧ lr.length = lh.length ∧
      (kw.lamprierFix = true → tr = true ∧ th = true) ∧
      sumDifferences ((unitsOf kw.lamprierFix w lr).zip (unitsOf kw.lamprierFix w lh)) w = .ok s ∧
      wdOut kw s (wdDen kw.lamprierFix (unitsOf kw.lamprierFix w lr).length w) = .ok out := by
  have h' := h
  rw [windowDiff] at h
  split at h
  · cases h
  · rename_i hyp' ref' h1
    obtain ⟨th, lh⟩ := hyp'
    obtain ⟨tr, lr⟩ := ref'
    have hl := (positionsChecked_length h1).1
    split at h
    · cases h
    · rename_i w h2
      have hf : kw.lamprierFix = true → tr = true ∧ th = true := by
        intro hf
        by_contra hc
        rw [wd_type h1 h2 hf hc] at h'
        cases h'
      cases hs : sumDifferences ((unitsOf kw.lamprierFix w lr).zip (unitsOf kw.lamprierFix w lh)) w
        with
      | error e => rw [wd_err h1 h2 hf hs] at h'; cases h'
      | ok s =>
        refine ⟨th, lh, tr, lr, w, s, h1, h2, hl, hf, hs, ?_⟩
        rw [← wd_eq h1 h2 hl hf hs, h']

theorem wd_parts_not_num {kw : WinKw} {hyp ref : Seg} (hp : kw.returnParts = true)
    (ho : kw.oneMinus = false) {x : ℚ} (h : Returns (windowDiff kw hyp ref) x) : False := by
  obtain ⟨v, hv, _⟩ := h
  obtain ⟨th, lh, tr, lr, w, s, -, -, -, -, -, h6⟩ := wd_inv hv
  unfold wdOut at h6
  rw [hp, ho] at h6
  split at h6
  · split at h6 <;> cases h6
  · split at h6
    · cases h6
    · simp at h6

theorem sumDifferences_bounds {u : List (Obj × Obj)} {w s : ℤ} (hs : sumDifferences u w = .ok s) :
    0 ≤ s ∧ s ≤ ((u.length - w).toNat : ℤ) := by
  have := forLoop_bounds _ (fun acc i x hx => ?_) hs
  · simpa [pyRange] using this
  · rw [sumStep] at hx
    split at hx
    · cases hx
    · simp only [Except.ok.injEq] at hx
      subst hx
      split <;> omega

theorem pySlice_length_nat {α : Type _} (l : List α) (i k : ℕ) (h : i + k < l.length) :
    (pySlice l i ((i : ℤ) + k + 1)).length = k + 1 := by
  rw [pySlice_nat l i k h, List.length_take, List.length_drop]; omega

/-- Windows of at most 255 raise nothing. -/
theorem sumDifferences_total (u : List (Obj × Obj)) (k : ℕ) (hk : k ≤ 255) :
    ∃ s, sumDifferences u k = .ok s := by
  have hstep : ∀ i : ℕ, i + k < u.length → ∀ acc, sumStep u k acc i =
      .ok (if (!(isInt (countChanges ((pySlice u i ((i : ℤ) + k + 1)).map Prod.fst))
        (countChanges ((pySlice u i ((i : ℤ) + k + 1)).map Prod.snd)))) = true
        then acc + 1 else acc) := by
    intro i hi acc
    have e0 : isInt ((pySlice u i ((i : ℤ) + k + 1)).length : ℤ) ((k : ℤ) + 1) = true := by
      rw [pySlice_length_nat u i k hi]
      have := isInt_small (k + 1) (k + 1) (by omega)
      simpa using this
    rw [sumStep, windowDiffers]
    simp only
    rw [if_pos e0]
  have hrange : pyRange ((u.length : ℤ) - k) = List.range (u.length - k) := by
    rw [pyRange]; congr 1; omega
  rw [sumDifferences, hrange]
  rw [forLoop_count _ _ (fun i => (!(isInt (countChanges ((pySlice u i ((i : ℤ) + k + 1)).map Prod.fst))
        (countChanges ((pySlice u i ((i : ℤ) + k + 1)).map Prod.snd)))) = true)
      (fun acc i hi => hstep i (by rw [List.mem_range] at hi; omega) acc)]
  exact ⟨_, rfl⟩

theorem sumDifferences_short (u : List (Obj × Obj)) (w : ℤ) (h : (u.length : ℤ) ≤ w) :
    sumDifferences u w = .ok 0 := by
  have : pyRange ((u.length : ℤ) - w) = [] := by
    rw [pyRange, Int.toNat_of_nonpos (by omega), List.range_zero]
  rw [sumDifferences, this, forLoop]

/-- The first window fails its assertion: too long for the small-int cache, or negative. -/
theorem sumDifferences_assert (u : List (Obj × Obj)) (w : ℤ) (hu : w < u.length)
    (hw : 256 ≤ w ∨ w ≤ -2) : sumDifferences u w = .error .assertionError := by
  obtain ⟨m, hm⟩ : ∃ m, ((u.length : ℤ) - w).toNat = m + 1 :=
    ⟨((u.length : ℤ) - w).toNat - 1, by omega⟩
  have hrange : ∃ rest, pyRange ((u.length : ℤ) - w) = 0 :: rest := by
    rw [pyRange, hm, List.range_succ_eq_map]; exact ⟨_, rfl⟩
  obtain ⟨rest, hrest⟩ := hrange
  have e0 : isInt ((pySlice u (0 : ℕ) (((0 : ℕ) : ℤ) + w + 1)).length : ℤ) (w + 1) = false := by
    rcases hw with hw | hw
    · obtain ⟨k, rfl⟩ : ∃ k : ℕ, w = k := ⟨w.toNat, by omega⟩
      rw [pySlice_length_nat u 0 k (by omega)]
      unfold isInt smallInt
      have : decide (((k + 1 : ℕ) : ℤ) ≤ 256) = false := by rw [decide_eq_false_iff_not]; omega
      rw [this]; simp
    · unfold isInt
      have : decide ((((pySlice u (0 : ℕ) (((0 : ℕ) : ℤ) + w + 1)).length : ℕ) : ℤ) = w + 1) =
          false := by
        rw [decide_eq_false_iff_not]; omega
      rw [this]; simp
  rw [sumDifferences, hrest, forLoop, sumStep, windowDiffers]
  simp only
  rw [e0]
  rfl

theorem windowSize_ge (f : ℚ → ℤ) (ms : List ℤ) : 2 ≤ windowSizeOfMasses f ms := by
  unfold windowSizeOfMasses
  simp only
  split <;> omega

theorem effectiveWindow_ok (kw : WinKw) (l : List Obj) : ∃ w, effectiveWindow kw l = .ok w ∧
    (kw.windowSize = none → 2 ≤ w) := by
  unfold effectiveWindow
  cases hw : kw.windowSize with
  | some w => exact ⟨w, rfl, fun h => by cases h⟩
  | none => exact ⟨_, rfl, fun _ => windowSize_ge _ _⟩

theorem effectiveWindow_congr (kw kw' : WinKw) {l l' : List Obj} (h : l ≠ []) (h' : l' ≠ [])
    (hc : changes (l.map Obj.val) = changes (l'.map Obj.val)) (h1 : kw.windowSize = kw'.windowSize)
    (h2 : kw.fncRound = kw'.fncRound) : effectiveWindow kw l = effectiveWindow kw' l' := by
  unfold effectiveWindow
  rw [h1, h2]
  have : runs (l.map Obj.val) = runs (l'.map Obj.val) := by
    rw [runs_eq _ (by simpa using h), runs_eq _ (by simpa using h'), hc]
  simp only [computeWindowSize, treePositionsToMasses, this, if_true]

theorem runsPat_length (n : ℕ) (p : List Bool) : (runsPat n p).length = p.count true + 1 := by
  induction p generalizing n with
  | nil => rfl
  | cons b bs ih => cases b <;> simp [runsPat, ih]

theorem windowSize_max (f : ℚ → ℤ) (ms : List ℤ) : windowSizeOfMasses f ms =
    max 2 (f (meanQ (ms.map (fun m : ℤ => (m : ℚ))) / 2)) := by
  unfold windowSizeOfMasses
  simp only
  split <;> omega

theorem sum_cast (l : List ℤ) : (l.map (fun m : ℤ => (m : ℚ))).sum = ((l.sum : ℤ) : ℚ) := by
  induction l with
  | nil => simp
  | cons x xs ih => rw [List.map_cons, List.sum_cons, ih, List.sum_cons]; push_cast; rfl

theorem mean_positions {l : List Obj} (hl : l ≠ []) :
    meanQ (((runs (l.map Obj.val)).map Int.ofNat).map (fun m : ℤ => (m : ℚ))) =
      (((changes (l.map Obj.val)).length : ℚ) + 1) / (((changes (l.map Obj.val)).count true : ℚ) + 1) := by
  have hs : (((runs (l.map Obj.val)).map Int.ofNat)).sum = l.length := masses_sum l
  have hlen : ((runs (l.map Obj.val)).map Int.ofNat).length =
      (changes (l.map Obj.val)).count true + 1 := by
    rw [runs_eq _ (by simpa using hl), List.length_map, runsPat_length]
  have hn : (changes (l.map Obj.val)).length + 1 = l.length := by
    rw [changes_length, List.length_map]
    have := List.length_pos_of_ne_nil hl
    omega
  unfold meanQ
  rw [List.length_map, hlen, if_pos (by omega), sum_cast, hs, ← hn]
  push_cast
  rfl

theorem effectiveWindow_spec {kw : WinKw} {l : List Obj} (hl : l ≠ []) {w : ℤ}
    (h : UsesWindow kw (changes (l.map Obj.val)) w) : effectiveWindow kw l = .ok w := by
  unfold UsesWindow at h
  unfold effectiveWindow
  cases hw : kw.windowSize with
  | some w' => rw [hw] at h; simp only at h ⊢; rw [h]
  | none =>
    rw [hw] at h
    simp only at h ⊢
    rw [computeWindowSize, if_pos rfl, treePositionsToMasses]
    simp only
    rw [windowSize_max, mean_positions hl, h]

theorem effectiveWindow_uses {kw : WinKw} {l : List Obj} (hl : l ≠ []) {w : ℤ}
    (h : effectiveWindow kw l = .ok w) : UsesWindow kw (changes (l.map Obj.val)) w := by
  unfold UsesWindow
  unfold effectiveWindow at h
  cases hw : kw.windowSize with
  | some w' => rw [hw] at h; simp only [Except.ok.injEq] at h ⊢; exact h.symm
  | none =>
    rw [hw] at h
    simp only at h ⊢
    rw [computeWindowSize, if_pos rfl, treePositionsToMasses] at h
    simp only [Except.ok.injEq] at h
    rw [windowSize_max, mean_positions hl] at h
    exact h.symm

/-! ## Totality and identical arguments -/

theorem forLoop_total {α σ : Type _} (l : List α) (f : σ → α → Py σ)
    (h : ∀ s, ∀ x ∈ l, ∃ r, f s x = .ok r) (s : σ) : ∃ r, forLoop l s f = .ok r := by
  induction l generalizing s with
  | nil => exact ⟨s, rfl⟩
  | cons x xs ih =>
    obtain ⟨r, hr⟩ := h s x (by simp)
    obtain ⟨r', hr'⟩ := ih (fun s y hy => h s y (by simp [hy])) r
    exact ⟨r', by rw [forLoop, hr]; exact hr'⟩

theorem forLoop_const {α σ : Type _} (l : List α) (f : σ → α → Py σ)
    (h : ∀ s x r, f s x = .ok r → r = s) {s r : σ} (hr : forLoop l s f = .ok r) : r = s := by
  induction l generalizing s with
  | nil => simp only [forLoop, Except.ok.injEq] at hr; exact hr.symm
  | cons x xs ih =>
    simp only [forLoop] at hr
    split at hr
    · rename_i s' hs
      rw [ih hr, h _ _ _ hs]
    · cases hr

theorem pkDifferences_total {h r : List Obj} (hl : r.length = h.length) (k : ℕ) :
    ∃ s, pkDifferences h r k = .ok s := by
  refine forLoop_total _ _ (fun acc i hi => ?_) 0
  have hi' : i + k < r.length := by
    rw [pyRange, List.mem_range] at hi; omega
  rw [pkStep, endsAgree_slice r i k hi']
  simp only
  rw [endsAgree_slice h i k (by omega)]
  exact ⟨_, rfl⟩

theorem pkDifferences_self {l : List Obj} {w s : ℤ} (h : pkDifferences l l w = .ok s) : s = 0 := by
  refine forLoop_const _ _ (fun acc i r hr => ?_) h
  rw [pkStep] at hr
  split at hr
  · cases hr
  · simp at hr
    exact hr.symm

theorem countChanges_lt : ∀ l : List Obj, countChanges l ≤ l.length
  | [] => by simp [countChanges]
  | [_] => by simp [countChanges]
  | x :: y :: rest => by
    have := countChanges_lt (y :: rest)
    simp only [countChanges, List.length_cons] at this ⊢
    split <;> omega

theorem sumDifferences_self {l : List Obj} {w s : ℤ} (h : sumDifferences (l.zip l) w = .ok s) :
    s = 0 := by
  refine forLoop_const _ _ (fun acc i r hr => ?_) h
  rw [sumStep] at hr
  split at hr
  · cases hr
  · rename_i b hb
    rw [windowDiffers] at hb
    simp only at hb
    split at hb
    · rename_i hlen
      set win := pySlice (l.zip l) i (i + w + 1) with hwin
      have hsmall : win.length ≤ 256 := by
        simp only [isInt, smallInt, Bool.and_eq_true, decide_eq_true_eq] at hlen
        omega
      have hfst : win.map Prod.fst = win.map Prod.snd := by
        rw [hwin, pySlice, List.map_take, List.map_drop, List.map_take, List.map_drop,
          List.map_fst_zip le_rfl, List.map_snd_zip le_rfl]
      have hc : isInt (countChanges (win.map Prod.fst)) (countChanges (win.map Prod.snd)) = true := by
        rw [hfst, isInt_small]
        · simp
        · exact (countChanges_lt _).trans (by rw [List.length_map]; exact hsmall)
      rw [hc] at hb
      simp only [Bool.not_true, Except.ok.injEq] at hb
      subst hb
      simp at hr
      exact hr.symm
    · cases hb

/-! ## Phantom units -/

theorem head?_val {l : List Obj} (hl : l ≠ []) : ∃ x, l.head? = some x := by
  cases l with
  | nil => exact absurd rfl hl
  | cons x xs => exact ⟨x, rfl⟩

theorem changes_append (a : List ℤ) (x y : ℤ) (b : List ℤ) :
    changes (a ++ x :: y :: b) = changes (a ++ [x]) ++ decide (x ≠ y) :: changes (y :: b) := by
  induction a with
  | nil => simp [changes]
  | cons c cs ih =>
    cases cs with
    | nil => simp [changes]
    | cons d ds =>
      simp only [List.cons_append, changes] at ih ⊢
      rw [ih]

theorem changes_replicate (k : ℕ) (c : ℤ) :
    changes (List.replicate k c) = List.replicate (k - 1) false := by
  cases k with
  | zero => rfl
  | succ k =>
    have := changes_replicate_append k c []
    simpa [changes] using this

theorem changes_padded (k : ℕ) (hk : 1 ≤ k) (l : List ℤ) (hl : l ≠ [])
    (h0 : ∀ x, l.head? = some x → x ≠ 0) (h1 : ∀ x, l.getLast? = some x → x ≠ 0) :
    changes (List.replicate k 0 ++ l ++ List.replicate k 0) = padded k (changes l) := by
  obtain ⟨j, rfl⟩ : ∃ j, k = j + 1 := ⟨k - 1, by omega⟩
  cases l with
  | nil => exact absurd rfl hl
  | cons x xs =>
    have hx : x ≠ 0 := h0 x rfl
    have hsplit : x :: xs = (x :: xs).dropLast ++ [(x :: xs).getLast (by simp)] :=
      (List.dropLast_append_getLast _).symm
    set z := (x :: xs).getLast (by simp) with hz
    have hz0 : z ≠ 0 := h1 z (List.getLast?_eq_getLast_of_ne_nil (by simp))
    have e1 : changes (x :: xs ++ List.replicate (j + 1) 0) =
        changes (x :: xs) ++ true :: List.replicate j false := by
      conv_lhs => rw [hsplit, List.append_assoc, List.replicate_succ, List.singleton_append]
      rw [changes_append, ← hsplit]
      have : changes (0 :: List.replicate j 0) = List.replicate j false := by
        rw [← List.replicate_succ, changes_replicate]; rfl
      rw [this]
      simp [hz0]
    rw [List.append_assoc, List.replicate_succ' , List.append_assoc, List.singleton_append,
      List.cons_append, changes_append, ← List.cons_append, ← List.replicate_succ',
      changes_replicate]
    simp [padded, Ne.symm hx]
    rw [← List.cons_append, e1]

theorem adjOk_append {a b : List Obj} (ha : AdjOk a) (hb : AdjOk b)
    (hab : ∀ x y, a.getLast? = some x → b.head? = some y → x.val = y.val → x.is y = true) :
    AdjOk (a ++ b) := by
  intro i x y hx hy hv
  rcases Nat.lt_trichotomy (i + 1) a.length with h | h | h
  · rw [List.getElem?_append_left (by omega)] at hx hy
    exact ha i x y hx hy hv
  · rw [List.getElem?_append_left (by omega)] at hx
    rw [List.getElem?_append_right (by omega)] at hy
    refine hab x y ?_ ?_ hv
    · rw [List.getLast?_eq_getElem?, ← h]; exact hx
    · rw [List.head?_eq_getElem?]; rwa [h, Nat.sub_self] at hy
  · rw [List.getElem?_append_right (by omega)] at hx hy
    refine hb (i - a.length) x y hx ?_ hv
    rwa [show i + 1 - a.length = i - a.length + 1 from by omega] at hy

theorem is_zero {x y : Obj} (h : x.val = y.val) (h0 : x.val = 0) : x.is y = true := by
  simp [Obj.is, ← h, h0, smallInt]

theorem unitsOf_adj {l : List Obj} (h : AdjOk l) (fix : Bool) (w : ℤ) : AdjOk (unitsOf fix w l) := by
  unfold unitsOf
  split
  · set ph : List Obj := List.replicate (if w ≤ 0 then (1 : ℤ) else w).toNat ⟨0, 0⟩ with hph
    have hz : ∀ x ∈ ph, x.val = 0 := fun x hx => by rw [hph] at hx; rw [List.eq_of_mem_replicate hx]
    have hA : AdjOk ph := fun i x y hx hy hv => is_zero hv (hz x (List.mem_of_getElem? hx))
    refine adjOk_append (adjOk_append hA h ?_) hA ?_
    · intro x y hx _ hv
      exact is_zero hv (hz x (List.mem_of_getLast? hx))
    · intro x y _ hy hv
      rw [is_comm]
      exact is_zero hv.symm (hz y (List.mem_of_mem_head? hy))
  · exact h

theorem unitsOf_changes {l : List Obj} (hl : l ≠ []) (h0 : ∀ x, l.head? = some x → x.val ≠ 0)
    (h1 : ∀ x, l.getLast? = some x → x.val ≠ 0) (k : ℕ) (hk : 1 ≤ k) :
    changes ((unitsOf true k l).map Obj.val) = padded k (changes (l.map Obj.val)) := by
  have e : (if (k : ℤ) ≤ 0 then (1 : ℤ) else k).toNat = k := by
    rw [if_neg (by omega), Int.toNat_natCast]
  unfold unitsOf
  rw [if_pos rfl, e, List.map_append, List.map_append, List.map_replicate]
  refine changes_padded k hk _ (by simpa using hl) ?_ ?_
  · intro x hx
    rw [List.head?_map, Option.map_eq_some_iff] at hx
    obtain ⟨y, hy, rfl⟩ := hx
    exact h0 y hy
  · intro x hx
    rw [List.getLast?_map, Option.map_eq_some_iff] at hx
    obtain ⟨y, hy, rfl⟩ := hx
    exact h1 y hy

theorem unitsOf_len (k : ℕ) (hk : 1 ≤ k) (l : List Obj) :
    (unitsOf true k l).length = l.length + 2 * k := by
  have e : (if (k : ℤ) ≤ 0 then (1 : ℤ) else k).toNat = k := by
    rw [if_neg (by omega), Int.toNat_natCast]
  unfold unitsOf
  rw [if_pos rfl, e]
  simp; omega

theorem padded_length (k : ℕ) (hk : 1 ≤ k) (pat : List Bool) :
    (padded k pat).length + 1 = pat.length + 1 + 2 * k := by
  unfold padded; simp; omega

theorem unitsOf_ne_nil {l : List Obj} (h : l ≠ []) (fix : Bool) (w : ℤ) : unitsOf fix w l ≠ [] := by
  unfold unitsOf; split
  · simp [h]
  · exact h

/-! ## Windows determine the pattern -/

theorem between_succ (p : List Bool) (i k : ℕ) :
    between p i (k + 1) = between p i k + (if p[i + k]? = some true then 1 else 0) := by
  unfold between
  rw [List.take_add_one, List.count_append, List.getElem?_drop]
  congr 1
  cases h : p[i + k]? with
  | none => simp
  | some b => cases b <;> simp

theorem between_pre {p q : List Bool} {i k : ℕ} (h : ∀ m < i + k, p[m]? = q[m]?) :
    between p i k = between q i k := by
  induction k with
  | zero => simp [between]
  | succ k ih =>
    rw [between_succ, between_succ, ih (fun m hm => h m (by omega)), h (i + k) (by omega)]

theorem windows_determine {p q : List Bool} (hl : p.length = q.length) (k : ℕ) (hk : 1 ≤ k)
    (hpre : ∀ m < k, p[m]? = q[m]?)
    (hw : ∀ i, i + k ≤ p.length → between p i k = between q i k) : p = q := by
  have key : ∀ m : ℕ, p[m]? = q[m]? := by
    intro m
    induction m using Nat.strong_induction_on with
    | _ m ih =>
      by_cases hm : m < k
      · exact hpre m hm
      · by_cases hmp : m < p.length
        · obtain ⟨j, rfl⟩ : ∃ j, k = j + 1 := ⟨k - 1, by omega⟩
          have h1 := hw (m - j) (by omega)
          rw [between_succ, between_succ, between_pre (p := p) (q := q) (fun x hx => ih x (by omega)),
            show m - j + j = m from by omega] at h1
          rw [List.getElem?_eq_getElem hmp, List.getElem?_eq_getElem (hl ▸ hmp)] at h1 ⊢
          cases hp : p[m] <;> cases hq : q[m]'(hl ▸ hmp) <;> simp [hp, hq] at h1 ⊢
        · rw [List.getElem?_eq_none (by omega), List.getElem?_eq_none (by omega)]
  exact List.ext_getElem? key

theorem padded_inj {k : ℕ} {p q : List Bool} (hl : p.length = q.length)
    (h : padded k p = padded k q) : p = q := by
  unfold padded at h
  simp only [List.append_assoc] at h
  have h1 := List.append_cancel_left (List.append_cancel_left h)
  exact (List.append_inj h1 hl).1

theorem padded_pre (k : ℕ) (hk : 1 ≤ k) (p q : List Bool) (m : ℕ) (hm : m < k) :
    (padded k p)[m]? = (padded k q)[m]? := by
  have e : ∀ x : List Bool, padded k x =
      (List.replicate (k - 1) false ++ [true]) ++ (x ++ [true] ++ List.replicate (k - 1) false) := by
    intro x; unfold padded; simp only [List.append_assoc]
  have hlen : m < (List.replicate (k - 1) false ++ [true]).length := by
    rw [List.length_append, List.length_replicate, List.length_singleton]; omega
  rw [e, e, List.getElem?_append_left hlen, List.getElem?_append_left hlen]

end SegEval
