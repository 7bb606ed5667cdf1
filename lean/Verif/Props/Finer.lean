import Verif.Lemmas.Finer
import Verif.Props.Joined
import Verif.Props.Nested

/-!
# C126: documents counted in smaller units
-/

namespace SegEval.Props

open SegEval Spec

/-- C126: to count in units of which `m` make up one of the former is to multiply the masses. -/
theorem C126_masses (m : ℕ) (hm : 1 ≤ m) (t t' : Bool) (l l' : List Obj) (p : List Bool)
    (h : Means .mass (.ints t l) p) (hl : l'.map Obj.val = l.map (fun x => (m : ℤ) * x.val)) :
    Means .mass (.ints t' l') (finer m false p) := by
  obtain ⟨h1, h2, rfl⟩ := (massMeans_iff _ _).1 h
  show MassMeans (l'.map Obj.val) _
  have e : l'.map Obj.val = (l.map Obj.val).map (fun x => (m : ℤ) * x) := by
    rw [hl, List.map_map]; rfl
  rw [e, massMeans_iff, massPat_finer hm _ h1 h2]
  refine ⟨by simpa using h1, fun x hx => ?_, rfl⟩
  obtain ⟨y, hy, rfl⟩ := List.mem_map.1 hx
  exact mul_pos (by exact_mod_cast hm) (h2 y hy)

theorem changes_repeat (x : ℤ) (r : List ℤ) (k : ℕ) :
    changes (List.replicate (k + 1) x ++ r) = List.replicate k false ++ changes (x :: r) := by
  induction k with
  | zero => rfl
  | succ k ih =>
    rw [List.replicate_succ, List.cons_append, List.replicate_succ, List.cons_append, changes,
      ← List.cons_append, ← List.replicate_succ, ih]
    simp [List.replicate_succ]

theorem changes_finer {m : ℕ} (hm : 1 ≤ m) (l : List ℤ) (hl : l ≠ []) :
    changes (l.flatMap (List.replicate m)) = finer m false (changes l) := by
  obtain ⟨k, rfl⟩ : ∃ k, m = k + 1 := ⟨m - 1, by omega⟩
  induction l with
  | nil => exact absurd rfl hl
  | cons x l ih =>
    rw [List.flatMap_cons, changes_repeat]
    cases l with
    | nil => simp [changes, finer]
    | cons y l =>
      have := ih (by simp)
      rw [show changes (x :: (y :: l).flatMap (List.replicate (k + 1))) =
        (decide (x ≠ y)) :: changes ((y :: l).flatMap (List.replicate (k + 1))) by
          simp [List.flatMap_cons, List.replicate_succ, changes], this,
        show changes (x :: y :: l) = decide (x ≠ y) :: changes (y :: l) by simp [changes], finer_cons]
      simp

/-- C126: or to repeat the label of every unit `m` times. -/
theorem C126_positions (m : ℕ) (hm : 1 ≤ m) (t t' : Bool) (l l' : List Obj) (p : List Bool)
    (h : Means .position (.ints t l) p)
    (hl : l'.map Obj.val = (l.map Obj.val).flatMap (List.replicate m)) :
    Means .position (.ints t' l') (finer m false p) := by
  obtain ⟨h1, rfl⟩ := (labelsMean_iff _ _).1 h
  show LabelsMean (l'.map Obj.val) _
  rw [labelsMean_iff, hl, changes_finer hm _ h1]
  refine ⟨?_, rfl⟩
  obtain ⟨x, r, hx⟩ := List.exists_cons_of_ne_nil h1
  rw [hx, List.flatMap_cons]
  obtain ⟨k, rfl⟩ : ∃ k, m = k + 1 := ⟨m - 1, by omega⟩
  simp [List.replicate_succ]

/-- C126: or to write `m - 1` zeros for the new potential boundaries within each unit. -/
theorem C126_strings (m : ℕ) (s : List Char) (p : List Bool) (h : Means .nltk (.str s) p) :
    Means .nltk (.str (finer m '0' s)) (finer m false p) := by
  have conv : ∀ (s : List Char) (p : List Bool), StringMeans '1' s p ↔ p = s.map (fun c => c == '1') := by
    intro s p
    constructor
    · rintro ⟨h1, h2⟩
      refine pat_ext (by simpa using h1.symm) fun i => ?_
      rw [h2, List.getElem?_map]
      cases s[i]? <;> simp
    · rintro rfl
      refine ⟨by simp, fun i => ?_⟩
      rw [List.getElem?_map]
      cases s[i]? <;> simp
  have e := (conv s p).1 h
  refine (conv _ _).2 ?_
  rw [e, finer_map]
  rfl

/-- C126: the default window is as long in both if the mean segment has an even number of units, four or
more, and the rounding leaves integers alone. -/
theorem C126_default_window (kw : WinKw) (hk : kw.windowSize = none) (pr : List Bool) (m k : ℕ)
    (hm : 1 ≤ m) (h2 : 2 ≤ k) (hround : ∀ i : ℤ, kw.fncRound i = i)
    (hmean : pr.length + 1 = 2 * k * (pr.count true + 1)) :
    UsesWindow kw pr k ∧ UsesWindow kw (finer m false pr) (m * k : ℕ) := by
  have c0 : ((pr.count true : ℚ) + 1) ≠ 0 := by positivity
  have hq : (pr.length : ℚ) + 1 = 2 * k * (pr.count true + 1) := by exact_mod_cast hmean
  have hc : (finer m false pr).count true = pr.count true := by
    have h1 := count_finer hm pr (m * (pr.length + 1))
    rw [List.take_of_length_le (by have := finer_length (d := false) hm pr; omega),
      Nat.mul_div_cancel_left _ (by omega), List.take_of_length_le (by omega)] at h1
    exact h1
  have hq' : ((finer m false pr).length : ℚ) + 1 = m * (pr.length + 1) := by
    exact_mod_cast finer_length (d := false) hm pr
  have hmk : 2 ≤ m * k := h2.trans (Nat.le_mul_of_pos_left k (by omega))
  constructor
  · simp only [UsesWindow, hk]
    rw [hq, mul_div_assoc, div_self c0, mul_one, mul_div_cancel_left₀ _ (by norm_num),
      show (k : ℚ) = ((k : ℤ) : ℚ) by norm_cast, hround, max_eq_right (by exact_mod_cast h2)]
  · simp only [UsesWindow, hk]
    rw [hc, hq', hq, show (m : ℚ) * (2 * k * (pr.count true + 1)) / (pr.count true + 1) / 2 =
        ((m * k : ℕ) : ℤ) by push_cast; field_simp, hround, max_eq_right (by exact_mod_cast hmk)]

/-- Two segments of four units each, with the rounding of Python. -/
example : (∀ i : ℤ, ({} : WinKw).fncRound i = i) ∧
    [false, false, false, true, false, false, false].length + 1 =
      2 * 2 * ([false, false, false, true, false, false, false].count true + 1) := by
  refine ⟨fun i => ?_, by decide⟩
  simp [roundHalfEven]

section
variable (kw kw' : WinKw) (h h' r r' : Seg) (ph pr : List Bool) (m k : ℕ)

/-- C126: Pk does not depend on the units if the window is as long in both. -/
theorem C126_pk (hm : 1 ≤ m) (hf : WindowFormat kw.boundaryFormat)
    (hf' : WindowFormat kw'.boundaryFormat)
    (hk : UsesWindow kw pr k) (hk' : UsesWindow kw' (finer m false pr) (m * k : ℕ))
    (hrp : kw.returnParts = false) (hrp' : kw'.returnParts = false)
    (hom : kw.oneMinus = false) (hom' : kw'.oneMinus = false)
    (hh : Means kw.boundaryFormat h ph) (hr : Means kw.boundaryFormat r pr)
    (hh' : Means kw'.boundaryFormat h' (finer m false ph))
    (hr' : Means kw'.boundaryFormat r' (finer m false pr))
    (uh : Unrepeated kw.boundaryFormat h) (ur : Unrepeated kw.boundaryFormat r)
    (uh' : Unrepeated kw'.boundaryFormat h') (ur' : Unrepeated kw'.boundaryFormat r')
    (hl : ph.length = pr.length) (x : ℚ) :
    Returns (pk kw' h' r') x ↔ Returns (pk kw h r) x := by
  have hl' : (finer m false ph).length = (finer m false pr).length := by
    have h1 := finer_length (d := false) hm ph
    have h2 := finer_length (d := false) hm pr
    rw [hl] at h1
    omega
  have F := C60_pk_formula kw hf h r ph pr hh hr uh ur hl k hk hrp hom
  have F' := C60_pk_formula kw' hf' h' r' _ _ hh' hr' uh' ur' hl' (m * k) hk' hrp' hom'
  rw [pkErrors_finer hm, windows_finer hm, Nat.cast_mul, Nat.cast_mul,
    mul_div_mul_left _ _ (by positivity)] at F'
  exact ⟨fun hx => returns_unique hx F' ▸ F, fun hx => returns_unique hx F ▸ F'⟩

/-- C126: nor does WindowDiff, as long as the window has at most 255 units. -/
theorem C126_window_diff (hm : 1 ≤ m) (hf : WindowFormat kw.boundaryFormat)
    (hf' : WindowFormat kw'.boundaryFormat)
    (hk : UsesWindow kw pr k) (hk' : UsesWindow kw' (finer m false pr) (m * k : ℕ))
    (hn : k < pr.length + 1) (hb : m * k ≤ 255)
    (hfix : kw.lamprierFix = false) (hfix' : kw'.lamprierFix = false)
    (hrp : kw.returnParts = false) (hrp' : kw'.returnParts = false)
    (hom : kw.oneMinus = false) (hom' : kw'.oneMinus = false)
    (hh : Means kw.boundaryFormat h ph) (hr : Means kw.boundaryFormat r pr)
    (hh' : Means kw'.boundaryFormat h' (finer m false ph))
    (hr' : Means kw'.boundaryFormat r' (finer m false pr))
    (uh : Neighbours kw.boundaryFormat h) (ur : Neighbours kw.boundaryFormat r)
    (uh' : Neighbours kw'.boundaryFormat h') (ur' : Neighbours kw'.boundaryFormat r')
    (hl : ph.length = pr.length) (x : ℚ) :
    Returns (windowDiff kw' h' r') x ↔ Returns (windowDiff kw h r) x := by
  have hl' : (finer m false ph).length = (finer m false pr).length := by
    have h1 := finer_length (d := false) hm ph
    have h2 := finer_length (d := false) hm pr
    rw [hl] at h1
    omega
  have hkm : k ≤ m * k := Nat.le_mul_of_pos_left k (by omega)
  rw [C61_returns_iff kw hf h r ph pr hh hr uh ur hl k hk hn hfix hrp hom,
    C61_returns_iff kw' hf' h' r' _ _ hh' hr' uh' ur' hl' (m * k) hk'
      (by rw [finer_length hm]; exact Nat.mul_lt_mul_of_pos_left hn (by omega)) hfix' hrp' hom',
    wdErrors_finer hm, windows_finer hm, Nat.cast_mul, Nat.cast_mul,
    mul_div_mul_left _ _ (by positivity)]
  simp only [hb, hkm.trans hb, true_and]

/-- C126: with the fix of Lamprier et al. the score rises a little with the number of units, because
it divides by one more than the number of windows. -/
theorem C126_window_diff_fixed (hm : 1 ≤ m) (hk1 : 1 ≤ k) (hf : WindowFormat kw.boundaryFormat)
    (hf' : WindowFormat kw'.boundaryFormat)
    (hk : UsesWindow kw pr k) (hk' : UsesWindow kw' (finer m false pr) (m * k : ℕ))
    (hfix : kw.lamprierFix = true) (hfix' : kw'.lamprierFix = true)
    (hrp : kw.returnParts = false) (hrp' : kw'.returnParts = false)
    (hom : kw.oneMinus = false) (hom' : kw'.oneMinus = false)
    (hh : Means kw.boundaryFormat h ph) (hr : Means kw.boundaryFormat r pr)
    (hh' : Means kw'.boundaryFormat h' (finer m false ph))
    (hr' : Means kw'.boundaryFormat r' (finer m false pr))
    (uh : Neighbours kw.boundaryFormat h) (ur : Neighbours kw.boundaryFormat r)
    (uh' : Neighbours kw'.boundaryFormat h') (ur' : Neighbours kw'.boundaryFormat r')
    (qh : Paddable kw.boundaryFormat h) (qr : Paddable kw.boundaryFormat r)
    (qh' : Paddable kw'.boundaryFormat h') (qr' : Paddable kw'.boundaryFormat r')
    (hl : ph.length = pr.length) (x x' : ℚ) (hx : Returns (windowDiff kw h r) x)
    (hx' : Returns (windowDiff kw' h' r') x') :
    x' * (m * (pr.length + 1 + k) + 1) = m * (x * (pr.length + 1 + k + 1)) ∧ x ≤ x' ∧
      (x' = x ↔ m = 1 ∨ x = 0) := by
  have hl' : (finer m false ph).length = (finer m false pr).length := by
    have h1 := finer_length (d := false) hm ph
    have h2 := finer_length (d := false) hm pr
    rw [hl] at h1
    omega
  have e := ((C62_returns_iff kw hf h r ph pr hh hr uh ur qh qr hl k hk hk1 hfix hrp hom x).1 hx).2
  have e' := ((C62_returns_iff kw' hf' h' r' _ _ hh' hr' uh' ur' qh' qr' hl' (m * k) hk'
    (Nat.mul_pos hm hk1) hfix' hrp' hom' x').1 hx').2
  rw [padded_finer hm hk1, padded_finer hm hk1, wdErrors_finer hm] at e'
  have hn : ((finer m false pr).length : ℚ) + 1 = m * (pr.length + 1) := by
    exact_mod_cast finer_length (d := false) hm pr
  rw [hn] at e'
  generalize (wdErrors (padded k ph) (padded k pr) k).card = E at e e'
  have n0 : (0 : ℚ) ≤ pr.length := Nat.cast_nonneg _
  generalize (pr.length : ℚ) = n at e e' n0 ⊢
  have m1 : (1 : ℚ) ≤ m := by exact_mod_cast hm
  have k0 : (0 : ℚ) ≤ k := Nat.cast_nonneg _
  have E0 : (0 : ℚ) ≤ E := Nat.cast_nonneg _
  have d0 : 0 < n + 1 + k + 1 := by linarith
  have d1 : 0 < (m : ℚ) * (n + 1 + k) + 1 := by
    have : 0 ≤ (m : ℚ) * (n + 1 + k) := mul_nonneg (by linarith) (by linarith)
    linarith
  have ex : x * (n + 1 + k + 1) = E := by rw [e, div_mul_cancel₀ _ d0.ne']
  have ex' : x' * (m * (n + 1 + k) + 1) = m * E := by
    rw [e']
    push_cast
    rw [show (m : ℚ) * (n + 1) + m * k + 1 = m * (n + 1 + k) + 1 by ring, div_mul_cancel₀ _ d1.ne']
  have x0 : 0 ≤ x := by rw [e]; positivity
  have diff : (x' - x) * (m * (n + 1 + k) + 1) = (m - 1) * x := by
    rw [sub_mul, ex', ← ex]; ring
  refine ⟨by rw [ex', ex], ?_, ?_⟩
  · have : 0 ≤ (x' - x) * (m * (n + 1 + k) + 1) := by
      rw [diff]; exact mul_nonneg (by linarith) x0
    have := nonneg_of_mul_nonneg_left this d1
    linarith
  · constructor
    · rintro rfl
      rw [sub_self, zero_mul] at diff
      rcases mul_eq_zero.1 diff.symm with h | h
      · left
        have : (m : ℚ) = 1 := by linarith
        exact_mod_cast this
      · exact .inr h
    · intro h
      have : (x' - x) * (m * (n + 1 + k) + 1) = 0 := by
        rw [diff]
        rcases h with rfl | rfl <;> simp
      rcases mul_eq_zero.1 this with h | h
      · linarith
      · exact absurd h d1.ne'

end

theorem misses_symmDiff {a b : BString} (hl : a.length = b.length) :
    Chain.misses a b = symmDiff (boundaries a) (boundaries b) := by
  ext ⟨p, t⟩
  rw [Chain.mem_misses hl, Finset.mem_symmDiff, mem_boundaries, mem_boundaries, missedAt_iff]
  tauto

theorem union_card (A B : Finset (ℕ × ℤ)) :
    (symmDiff A B).card + (A ∩ B).card = (A ∪ B).card := by
  rw [← Finset.card_union_of_disjoint]
  · congr 1
    ext z
    simp only [Finset.mem_union, Finset.mem_symmDiff, Finset.mem_inter]
    tauto
  · rw [Finset.disjoint_left]
    intro z
    simp only [Finset.mem_symmDiff, Finset.mem_inter]
    tauto

theorem usesType_finer {m : ℕ} (hm : 1 ≤ m) {a b : BString} {t : ℤ} :
    UsesType (finer m ∅ a) (finer m ∅ b) t ↔ UsesType a b t := by
  constructor
  · rintro ⟨p, h⟩
    rw [typesAt_finer hm, typesAt_finer hm] at h
    split at h
    · exact ⟨_, h⟩
    · simp at h
  · rintro ⟨p, h⟩
    have h1 : 1 ≤ m * (p + 1) := Nat.mul_pos hm (by omega)
    refine ⟨m * (p + 1) - 1, ?_⟩
    rw [typesAt_finer hm, typesAt_finer hm, Nat.sub_add_cancel h1, Nat.mul_mod_right, if_pos rfl,
      if_pos rfl, Nat.mul_div_cancel_left _ (by omega), Nat.add_sub_cancel]
    exact h

/-- The edits in smaller units. -/
theorem edits_finer {rt : Runtime} {m : ℕ} (hm : 1 ≤ m) {nT : ℤ} (hn : nT ≤ m) {sa sb : BString}
    (hl : (finer m ∅ sa).length = (finer m ∅ sb).length) (hs : SharedTypes rt sa sb)
    (h1 : OneSided sa sb) {e : Edits}
    (he : boundaryEditDistance rt (finer m ∅ sa) (finer m ∅ sb) nT = .ok e) :
    e.transpositions = [] ∧ editCount e = (symmDiff (boundaries sa) (boundaries sb)).card ∧
      matchCount (finer m ∅ sa) (finer m ∅ sb) = (boundaries sa ∩ boundaries sb).card := by
  have hT : e.transpositions = [] := by
    rw [List.eq_nil_iff_forall_not_mem]
    intro t ht
    exact no_transpositions_finer hm hn (C07_transpositions_genuine rt _ _ hl nT e he t ht)
  have hi := finerAt_injective hm
  refine ⟨hT, ?_, ?_⟩
  · have h2 := (edits_misses hl (sharedTypes_finer hm hs) (oneSided_finer hm h1) he).1
    rw [hT, List.length_nil, Nat.add_zero] at h2
    rw [h2, misses_symmDiff hl, boundaries_finer hm, boundaries_finer hm,
      ← Finset.image_symmDiff _ _ hi, Finset.card_image_of_injective _ hi]
  · rw [matches_card, boundaries_finer hm, boundaries_finer hm, ← Finset.image_inter _ _ hi,
      Finset.card_image_of_injective _ hi]

/-- C126: in smaller units, `n_t` of them at least per former unit, no boundary is nearly missed:
boundary similarity is the share of boundaries that are exactly right, and so no higher than before. -/
theorem C126_boundary (rt : Runtime) (kw kw' : SimKw) (hw : kw.weight = .default)
    (hw' : kw'.weight = .default) (hr : kw.returnParts = false) (hr' : kw'.returnParts = false)
    (ho : kw.oneMinus = false) (ho' : kw'.oneMinus = false) (a b a' b' : Seg) (sa sb : BString)
    (m : ℕ) (hm : 1 ≤ m) (hn : kw'.nT ≤ m)
    (ha : Denotes kw.boundaryFormat a sa) (hb : Denotes kw.boundaryFormat b sb)
    (ha' : Denotes kw'.boundaryFormat a' (finer m ∅ sa))
    (hb' : Denotes kw'.boundaryFormat b' (finer m ∅ sb))
    (hs : SharedTypes rt sa sb) (h1 : OneSided sa sb) (x x' : ℚ)
    (hx' : Returns (boundarySimilarity rt kw' a' b') x') :
    x' = (boundaries sa ∩ boundaries sb).card / (boundaries sa ∪ boundaries sb).card ∧
    (Returns (boundarySimilarity rt kw a b) x → x' ≤ x) := by
  have h1' := oneSided_finer hm h1
  obtain ⟨hl', hu', hbed', -, hval'⟩ := boundary_value hw' hr' ho' ha' hb' hx'
  obtain ⟨mx', mn', he'⟩ := extremes_exist hu'
  obtain ⟨e1, e2, e3⟩ := edits_finer hm hn hl' hs h1 hbed'
  have hv : x' = (boundaries sa ∩ boundaries sb).card / (boundaries sa ∪ boundaries sb).card := by
    rw [hval' mx' mn' he', credit_plain _ _ _ _ (no_substitutions hl' h1' hbed'), e1, e2, e3,
      ← union_card]
    simp [transpositionCredit]
  refine ⟨hv, fun hx => ?_⟩
  obtain ⟨hl, hu, hbed, hpos, hval⟩ := boundary_value hw hr ho ha hb hx
  obtain ⟨mx, mn, he⟩ := extremes_exist hu
  have hM := (edits_misses hl hs h1 hbed).1
  rw [misses_symmDiff hl] at hM
  have hc := credit_nonneg hl hbed
  rw [hv, hval mx mn he, credit_plain _ _ _ _ (no_substitutions hl h1 hbed), ← union_card,
    matches_card]
  rw [matches_card] at hpos
  refine (div_le_div_of_nonneg_left (Nat.cast_nonneg _) (by exact_mod_cast hpos) ?_).trans
    (div_le_div_of_nonneg_right (by linarith) (by positivity))
  have : editCount (editsOf rt sa sb kw.nT) + (boundaries sa ∩ boundaries sb).card ≤
      (symmDiff (boundaries sa) (boundaries sb)).card + (boundaries sa ∩ boundaries sb).card := by omega
  exact_mod_cast this

/-- C126: what lacks segmentation similarity to 1 is the number of boundaries only one segmentation
has, over the potential boundaries between the smaller units. -/
theorem C126_segmentation (rt : Runtime) (kw' : SimKw) (hw' : kw'.weight = .default)
    (hr' : kw'.returnParts = false) (ho' : kw'.oneMinus = false) (a' b' : Seg) (sa sb : BString)
    (m : ℕ) (hm : 1 ≤ m) (hn : kw'.nT ≤ m)
    (ha' : Denotes kw'.boundaryFormat a' (finer m ∅ sa))
    (hb' : Denotes kw'.boundaryFormat b' (finer m ∅ sb))
    (hs : SharedTypes rt sa sb) (h1 : OneSided sa sb) (types : Finset ℤ)
    (ht : ∀ t, t ∈ types ↔ UsesType sa sb t) (x' : ℚ)
    (hx' : Returns (segmentationSimilarity rt kw' a' b') x') :
    x' = 1 - (symmDiff (boundaries sa) (boundaries sb)).card /
      ((m * (sa.length + 1) - 1) * types.card * types.card) := by
  have h1' := oneSided_finer hm h1
  obtain ⟨hl', hu', hbed', hval'⟩ := segmentation_value hw' hr' ho' ha' hb' hx'
  obtain ⟨mx', mn', he'⟩ := extremes_exist hu'
  obtain ⟨e1, e2, e3⟩ := edits_finer hm hn hl' hs h1 hbed'
  have hty : types = identifyTypes (finer m ∅ sa) (finer m ∅ sb) := by
    ext t
    rw [ht, mem_identifyTypes, usesType_finer hm]
  have hn' : ((finer m ∅ sa).length : ℚ) = m * (sa.length + 1) - 1 := by
    have : ((finer m (∅ : Finset ℤ) sa).length : ℚ) + 1 = m * (sa.length + 1) := by
      exact_mod_cast finer_length (d := (∅ : Finset ℤ)) hm sa
    linarith
  rw [hval' mx' mn' he', cost_plain _ _ _ (no_substitutions hl' h1' hbed'), e1, e2, ← hty, hn']
  simp [transpositionCredit]

/-- C126 for masses and the default `n_t`, or any up to `m`. -/
theorem C126_boundary_masses (rt : Runtime) (kw : SimKw) (hw : kw.weight = .default)
    (hr : kw.returnParts = false) (ho : kw.oneMinus = false) (hf : kw.boundaryFormat = .mass)
    (t t' : Bool) (l r l' r' : List Obj) (m : ℕ) (hm : 1 ≤ m) (hn : kw.nT ≤ m)
    (hl : l'.map Obj.val = l.map (fun x => (m : ℤ) * x.val))
    (hr' : r'.map Obj.val = r.map (fun x => (m : ℤ) * x.val)) (p q : List Bool)
    (hp : Means .mass (.ints t l) p) (hq : Means .mass (.ints t r) q) (x x' : ℚ)
    (hx : Returns (boundarySimilarity rt kw (.ints t l) (.ints t r)) x)
    (hx' : Returns (boundarySimilarity rt kw (.ints t' l') (.ints t' r')) x') :
    x' ≤ x := by
  have hp' := C126_masses m hm t t' l l' p hp hl
  have hq' := C126_masses m hm t t' r r' q hq hr'
  have den : ∀ {s p}, Means .mass s p →
      Denotes .mass s (p.map (fun x => if x then ({1} : Finset ℤ) else ∅)) := fun h => ⟨_, h, rfl⟩
  have fin : ∀ p : List Bool, (finer m false p).map (fun x => if x then ({1} : Finset ℤ) else ∅) =
      finer m ∅ (p.map (fun x => if x then ({1} : Finset ℤ) else ∅)) := fun p => finer_map _ p
  have dp := den hp
  have dq := den hq
  have dp' := den hp'
  have dq' := den hq'
  rw [fin] at dp' dq'
  rw [← hf] at dp dq dp' dq'
  refine (C126_boundary rt kw kw hw hw hr hr ho ho _ _ _ _ _ _ m hm hn dp dq dp' dq'
    (denotes_shared rt dp dq (by rw [hf]; decide)) ?_ x x' hx').2 hx
  exact oneSided_of_oneType (denotes_types dp (by rw [hf]; decide)) (denotes_types dq (by rw [hf]; decide))

/-- C126, refuted for the similarities: near misses of one unit are full misses in halves of it. -/
theorem C126_similarities_refuted :
    Returns (boundarySimilarity .ascending {} (massSeg [4, 4]) (massSeg [5, 3])) (1 / 2) ∧
    Returns (boundarySimilarity .ascending {} (massSeg [8, 8]) (massSeg [10, 6])) 0 ∧
    Returns (segmentationSimilarity .ascending {} (massSeg [4, 4]) (massSeg [5, 3])) (13 / 14) ∧
    Returns (segmentationSimilarity .ascending {} (massSeg [8, 8]) (massSeg [10, 6])) (13 / 15) :=
  ⟨⟨.dec (1 / 2), by decide +kernel, by norm_num [PyNum.val]⟩,
    ⟨.dec 0, by decide +kernel, by norm_num [PyNum.val]⟩,
    ⟨.dec (13 / 14), by decide +kernel, by norm_num [PyNum.val]⟩,
    ⟨.dec (13 / 15), by decide +kernel, by norm_num [PyNum.val]⟩⟩

/-- C126, refuted for the window metrics with their default windows, which are rounded: the window is
two units of five, but three of ten. -/
theorem C126_default_window_refuted :
    Returns (pk {} (massSeg [4, 1]) (massSeg [2, 3])) 1 ∧
    Returns (pk {} (massSeg [8, 2]) (massSeg [4, 6])) (1 / 2) ∧
    Returns (windowDiff {} (massSeg [4, 1]) (massSeg [2, 3])) 1 ∧
    Returns (windowDiff {} (massSeg [8, 2]) (massSeg [4, 6])) (1 / 2) :=
  ⟨⟨.dec 1, by decide +kernel, by norm_num [PyNum.val]⟩,
    ⟨.dec (1 / 2), by decide +kernel, by norm_num [PyNum.val]⟩,
    ⟨.dec 1, by decide +kernel, by norm_num [PyNum.val]⟩,
    ⟨.dec (1 / 2), by decide +kernel, by norm_num [PyNum.val]⟩⟩

/-- Eight units, and the sixteen halves of them: with the windows that belong together the scores are
the same; with the fix they are not. -/
example : finer 2 false [false, true, false] = [false, false, false, true, false, false, false] ∧
    Returns (pk { windowSize := some 2 } (massSeg [2, 4, 2]) (massSeg [3, 2, 3])) (2 / 3) ∧
    Returns (pk { windowSize := some 4 } (massSeg [4, 8, 4]) (massSeg [6, 4, 6])) (2 / 3) ∧
    Returns (windowDiff { windowSize := some 2 } (massSeg [2, 4, 2]) (massSeg [3, 2, 3])) (2 / 3) ∧
    Returns (windowDiff { windowSize := some 4 } (massSeg [4, 8, 4]) (massSeg [6, 4, 6])) (2 / 3) ∧
    Returns (windowDiff { windowSize := some 2, lamprierFix := true } (massSeg [2, 4, 2])
      (massSeg [3, 2, 3])) (4 / 11) ∧
    Returns (windowDiff { windowSize := some 4, lamprierFix := true } (massSeg [4, 8, 4])
      (massSeg [6, 4, 6])) (8 / 21) :=
  ⟨by decide, ⟨.dec (2 / 3), by decide +kernel, by norm_num [PyNum.val]⟩,
    ⟨.dec (2 / 3), by decide +kernel, by norm_num [PyNum.val]⟩,
    ⟨.dec (2 / 3), by decide +kernel, by norm_num [PyNum.val]⟩,
    ⟨.dec (2 / 3), by decide +kernel, by norm_num [PyNum.val]⟩,
    ⟨.dec (4 / 11), by decide +kernel, by norm_num [PyNum.val]⟩,
    ⟨.dec (8 / 21), by decide +kernel, by norm_num [PyNum.val]⟩⟩

/-- The masses of the last example are those that `C126_masses` speaks of. -/
example : Means .mass (massSeg [6, 4, 6]) (finer 2 false (massPat [3, 2, 3])) :=
  C126_masses 2 (by decide) true true ([3, 2, 3].map (fun m => ⟨m, 0⟩)) _ _
    ((massMeans_iff _ _).2 ⟨by decide, by decide, rfl⟩) (by decide)

/-- Labels of three units, and of the six halves of them. -/
example : Means .position (.ints true ([4, 4, 4, 4, 9, 9].map (fun x => ⟨x, 0⟩)))
    (finer 2 false [false, true]) :=
  C126_positions 2 (by decide) true true ([4, 4, 9].map (fun x => ⟨x, 0⟩)) _ _
    ((labelsMean_iff _ _).2 ⟨by decide, by decide⟩) (by decide)

end SegEval.Props
