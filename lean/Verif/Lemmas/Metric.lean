import Verif.Lemmas.Similarity

namespace SegEval

open Spec

theorem forLoop_congr {α σ : Type _} {l : List α} (f g : σ → α → Py σ)
    (h : ∀ s, ∀ x ∈ l, f s x = g s x) {s : σ} : forLoop l s f = forLoop l s g := by
  induction l generalizing s with
  | nil => rfl
  | cons x xs ih =>
    simp only [forLoop]
    rw [h s x (by simp)]
    cases g s x with
    | error e => rfl
    | ok s' => exact ih (fun s y hy => h s y (by simp [hy]))

theorem forLoop_raises {α σ : Type _} (l : List α) (f : σ → α → Py σ) (x : α) (hx : x ∈ l)
    (h : ∀ s, ∃ e, f s x = .error e) (s : σ) : ∃ e, forLoop l s f = .error e := by
  induction l generalizing s with
  | nil => simp at hx
  | cons y ys ih =>
    simp only [forLoop]
    rcases List.mem_cons.1 hx with rfl | hx
    · obtain ⟨e, he⟩ := h s
      exact ⟨e, by rw [he]⟩
    · cases f s y with
      | error e => exact ⟨e, rfl⟩
      | ok s' => exact ih hx s'

/-! ## From arguments to boundary strings -/

theorem toBString_means {fmt : BoundaryFormat} {seg : Seg} {pat : List Bool}
    (h : Means fmt seg pat) : toBString fmt seg = .ok (pat.map bset) := by
  match fmt, seg with
  | .mass, .ints _ l =>
    obtain ⟨h1, h2, rfl⟩ := (massMeans_iff _ _).1 h
    exact boundaryString_eq _ h2 h1
  | .position, .ints _ l =>
    obtain ⟨h1, rfl⟩ := (labelsMean_iff _ _).1 h
    have hr : convertPositionsToMasses l = (runsPat 1 (changes (l.map Obj.val))).map Int.ofNat := by
      rw [convertPositionsToMasses, runs_eq _ h1]
    have hpos : ∀ m ∈ convertPositionsToMasses l, 0 < m := by
      intro m hm
      rw [hr, List.mem_map] at hm
      obtain ⟨k, hk, rfl⟩ := hm
      have := runsPat_pos 1 (by omega) _ k hk
      simp only [Int.ofNat_eq_natCast]; omega
    have hne : convertPositionsToMasses l ≠ [] := by
      rw [hr]; simpa using runsPat_ne_nil 1 _
    show boundaryStringFromMasses (convertPositionsToMasses l) = _
    rw [boundaryString_eq _ hpos hne, hr, massPat_runsPat 1 (by omega)]
    simp
  | .nltk, .str s =>
    have hp := (stringMeans_iff _ _ _).1 h
    show boundaryStringFromMasses (convertNltkToMasses s) = _
    rw [boundaryString_eq _ (nltk_pos _ s) (nltk_ne_nil _ s), nltk_massPat, hp]
  | .sets, .sets l =>
    have hp := (setsMean_iff _ _).1 h
    show Except.ok l = _
    rw [hp]

theorem toBString_denotes {fmt : BoundaryFormat} {seg : Seg} {s : BString}
    (h : Denotes fmt seg s) : toBString fmt seg = .ok s := by
  match fmt, seg with
  | .sets, .sets l => cases h; rfl
  | .mass, seg | .position, seg | .nltk, seg | .other, seg | .sets, .ints _ _ | .sets, .str _ =>
    obtain ⟨pat, h1, rfl⟩ := h
    exact toBString_means h1

theorem toBStrings_denotes {fmt : BoundaryFormat} {a b : Seg} {sa sb : BString}
    (ha : Denotes fmt a sa) (hb : Denotes fmt b sb) : toBStrings fmt a b = .ok (sa, sb) := by
  rw [toBStrings, toBString_denotes ha]
  simp only
  rw [toBString_denotes hb]

theorem toBStrings_swap {fmt : BoundaryFormat} {a b : Seg} {sa sb : BString}
    (h : toBStrings fmt a b = .ok (sa, sb)) : toBStrings fmt b a = .ok (sb, sa) := by
  unfold toBStrings at h ⊢
  cases ha : toBString fmt a with
  | error e => rw [ha] at h; cases h
  | ok x =>
    rw [ha] at h
    simp only at h
    cases hb : toBString fmt b with
    | error e => rw [hb] at h; cases h
    | ok y =>
      rw [hb] at h
      simp only [Except.ok.injEq, Prod.mk.injEq] at h
      rw [h.1, h.2]

/-- In a format with one boundary type, only type 1 occurs. -/
theorem denotes_types {fmt : BoundaryFormat} {seg : Seg} {s : BString} (h : Denotes fmt seg s)
    (hf : fmt ≠ .sets) : ∀ p, typesAt s p ⊆ {1} := by
  have key : ∃ pat : List Bool, s = pat.map (fun x => if x then {1} else ∅) := by
    match fmt, seg with
    | .sets, _ => exact absurd rfl hf
    | .mass, seg | .position, seg | .nltk, seg | .other, seg =>
      obtain ⟨pat, _, rfl⟩ := h
      exact ⟨pat, rfl⟩
  obtain ⟨pat, rfl⟩ := key
  intro p
  rw [typesAt, List.getElem?_map]
  cases pat[p]? with
  | none => simp
  | some x => cases x <;> simp

/-- Formats with one boundary type never depend on the identity of type objects. -/
theorem denotes_shared {fmt : BoundaryFormat} {a b : Seg} {sa sb : BString} (rt : Runtime)
    (ha : Denotes fmt a sa) (hb : Denotes fmt b sb) (hf : fmt ≠ .sets) : SharedTypes rt sa sb := by
  intro p t ht
  left
  have : t = 1 := by
    rw [missedAt, Finset.mem_union, mem_onlyIn, mem_onlyIn] at ht
    rcases ht with ht | ht
    · simpa using denotes_types ha hf p ht.1
    · simpa using denotes_types hb hf p ht.1
  subst this
  decide

/-! ## No transposition found -/

theorem foldl_prefix {τ β : Type _} (l : List β) (step : List τ → β → List τ)
    (hp : ∀ ts x, ts <+: step ts x) (ts : List τ) : ts <+: l.foldl step ts := by
  induction l generalizing ts with
  | nil => exact List.prefix_refl _
  | cons x xs ih => exact (hp ts x).trans (ih _)

theorem foldl_nil_step {τ β : Type _} (l : List β) (step : List τ → β → List τ)
    (hp : ∀ ts x, ts <+: step ts x) (h : l.foldl step [] = []) : ∀ x ∈ l, step [] x = [] := by
  induction l with
  | nil => simp
  | cons x xs ih =>
    have h1 : step [] x = [] := by
      have := foldl_prefix xs step hp (step [] x)
      rw [List.foldl_cons] at h
      rw [h] at this
      exact List.prefix_nil.1 this
    intro y hy
    rcases List.mem_cons.1 hy with rfl | hy
    · exact h1
    · refine ih ?_ y hy
      rwa [List.foldl_cons, h1] at h

theorem stepT_prefix (rt : Runtime) (a b : BString) (i j : ℕ) (ts : List Transposition) (d : ℤ) :
    ts <+: stepT rt a b i j ts d := by
  unfold stepT
  split
  · exact List.prefix_append _ _
  · exact List.prefix_refl _

/-- The search finds nothing exactly when every possible transposition is blocked from the
start. -/
theorem allT_nil_iff {rt : Runtime} {a b : BString} (h : a.length ≤ b.length) (nT : ℤ) :
    allT rt a b nT = [] ↔ ∀ t, Genuine a b nT t → Blocked a b [] t.start t.stop := by
  have hacc : ∀ i j d, i < j → j < a.length → d ∈ candidates a b i j →
      (accepts rt a b i j [] d = true ↔ ¬ Blocked a b [] i j) := by
    intro i j d hij hj hd
    have hs := hasSubs_iff (ts := []) h hij hj hd (by simp [transposedAt_nil])
      (by simp [transposedAt_nil])
    rw [accepts_iff]
    constructor
    · rintro ⟨_, h2⟩ hb
      rw [hs.2 hb] at h2; cases h2
    · intro hb
      refine ⟨by simp [overlapsExisting, stateOf], ?_⟩
      by_contra hc
      rw [Bool.not_eq_false] at hc
      exact hb (hs.1 hc)
  constructor
  · intro hnil t ht
    by_contra hb
    have h1 := ht.ordered
    have h2 := ht.inRange
    have h3 := ht.span
    have p1 := fun ts i => foldl_prefix (rt.order [0, t.stop - t.start, i]
      (candidates a b i (i + (t.stop - t.start)))) (stepT rt a b i (i + (t.stop - t.start)))
      (fun ts d => stepT_prefix rt a b _ _ ts d) ts
    have q1 := foldl_nil_step (spans nT) (spanT rt a b) (fun ts span =>
      foldl_prefix _ _ (fun ts i => foldl_prefix _ _ (fun ts d => stepT_prefix rt a b _ _ ts d) ts) ts)
      hnil (t.stop - t.start) (mem_spans.2 ⟨by omega, by omega⟩)
    have q2 := foldl_nil_step _ (posT rt a b (t.stop - t.start)) p1 q1 t.start
      (List.mem_range.2 (by omega))
    have hj : t.start + (t.stop - t.start) = t.stop := by omega
    rw [posT, hj] at q2
    have hc : t.type ∈ candidates a b t.start t.stop := mem_candidates.2 ht.moves
    have q3 := foldl_nil_step _ _ (fun ts d => stepT_prefix rt a b _ _ ts d) q2 t.type
      ((rt.mem_order _ _ _).2 hc)
    rw [stepT, if_pos ((hacc _ _ _ h1 h2 hc).2 hb)] at q3
    simp at q3
  · intro hall
    refine allT_inv (P := fun ts => ts = []) rfl ?_
    intro ts i j d hts hij hj hspan hd hac
    subst hts
    exact absurd (hall ⟨i, j, d⟩ ⟨hij, hj, hspan, mem_candidates.1 hd⟩) ((hacc i j d hij hj hd).1 hac)

theorem subs_nil_iff (rt : Runtime) (a b : BString) (nT : ℤ) :
    (editsOf rt a b nT).substitutions = [] ↔ ∀ p < a.length,
      leftover a b (allT rt a b nT) p = ∅ ∨ leftover b a (allT rt a b nT) p = ∅ := by
  rw [← List.length_eq_zero_iff, editsOf]
  simp only [length_flatMap_range, subsOf_length, Finset.sum_eq_zero_iff, Finset.mem_range]
  refine forall_congr' (fun p => imp_congr_right (fun _ => ?_))
  rw [← Finset.card_eq_zero, ← Finset.card_eq_zero]
  omega

theorem typesAt_beyond {s : BString} {p : ℕ} (h : s.length ≤ p) : typesAt s p = ∅ := by
  rw [typesAt, List.getElem?_eq_none h]; rfl

/-- Every edit is an addition and nothing matches. -/
theorem all_additions_iff {rt : Runtime} {a b : BString} (hl : a.length = b.length) (nT : ℤ) :
    (((editsOf rt a b nT).substitutions = [] ∧ (editsOf rt a b nT).transpositions = []) ∧
      matchCount a b = 0) ↔ NeverTogether a b ∧ ¬ ∃ t, Genuine a b nT t := by
  have hsplit : ∀ p, (typesAt a p = ∅ ∨ typesAt b p = ∅) ↔
      ((onlyIn a b p = ∅ ∨ onlyIn b a p = ∅) ∧ typesAt a p ∩ typesAt b p = ∅) := by
    intro p
    constructor
    · rintro (h | h) <;> simp [onlyIn, h]
    · rintro ⟨h1, h2⟩
      rcases h1 with h1 | h1
      · rw [onlyIn, Finset.sdiff_eq_empty_iff_subset] at h1
        exact Or.inl (by rwa [Finset.inter_eq_left.2 h1] at h2)
      · rw [onlyIn, Finset.sdiff_eq_empty_iff_subset] at h1
        exact Or.inr (by rwa [Finset.inter_eq_right.2 h1] at h2)
  have hm : matchCount a b = 0 ↔ ∀ p < a.length, typesAt a p ∩ typesAt b p = ∅ := by
    rw [matchCount, Finset.sum_eq_zero_iff]
    simp only [Finset.mem_range, Finset.card_eq_zero]
  have hT : (editsOf rt a b nT).transpositions = allT rt a b nT := rfl
  rw [subs_nil_iff, hT, hm]
  constructor
  · rintro ⟨⟨h1, h2⟩, h3⟩
    rw [h2] at h1
    have h1' : ∀ p < a.length, onlyIn a b p = ∅ ∨ onlyIn b a p = ∅ := by
      intro p hp
      simpa [leftover, transposedAt_nil] using h1 p hp
    refine ⟨fun p => ?_, ?_⟩
    · by_cases hp : p < a.length
      · exact (hsplit p).2 ⟨h1' p hp, h3 p hp⟩
      · exact Or.inl (typesAt_beyond (by omega))
    · rintro ⟨t, ht⟩
      have hb := (allT_nil_iff (rt := rt) (le_of_eq hl) nT).1 h2 t ht
      have ho := ht.ordered
      have hi := ht.inRange
      have := h1 t.start (by omega)
      rcases this with h | h
      · exact hb.1.1 h
      · exact hb.1.2 h
  · rintro ⟨h1, h2⟩
    have hnil : allT rt a b nT = [] :=
      (allT_nil_iff (le_of_eq hl) nT).2 (fun t ht => absurd ⟨t, ht⟩ h2)
    refine ⟨⟨fun p _ => ?_, hnil⟩, fun p _ => ((hsplit p).1 (h1 p)).2⟩
    rw [hnil]
    simpa [leftover, transposedAt_nil] using ((hsplit p).1 (h1 p)).1

theorem edits_zero_iff {rt : Runtime} {a b : BString} (hl : a.length = b.length) (nT : ℤ) :
    editCount (editsOf rt a b nT) = 0 ↔ a = b := by
  rw [editCount, edits_count]
  constructor
  · intro h
    have hT : allT rt a b nT = [] := List.length_eq_zero_iff.1 (by rw [editsWith] at h; omega)
    rw [hT, editsWith, List.length_nil, zero_add] at h
    apply List.ext_getElem?
    intro p
    by_cases hp : p < a.length
    · have hz := (Finset.sum_eq_zero_iff.1 h) p (Finset.mem_range.2 hp)
      have ea : onlyIn a b p = ∅ := by
        have : (leftover a b [] p).card = 0 := by omega
        simpa [leftover, transposedAt_nil] using this
      have eb : onlyIn b a p = ∅ := by
        have : (leftover b a [] p).card = 0 := by omega
        simpa [leftover, transposedAt_nil] using this
      have e1 : a[p]? = some a[p] := List.getElem?_eq_getElem hp
      have e2 : b[p]? = some b[p] := List.getElem?_eq_getElem (by omega)
      rw [onlyIn, typesAt_of_get e1, typesAt_of_get e2, Finset.sdiff_eq_empty_iff_subset] at ea eb
      rw [e1, e2, Finset.Subset.antisymm ea eb]
    · rw [List.getElem?_eq_none (by omega), List.getElem?_eq_none (by omega)]
  · rintro rfl
    have hempty : ∀ p, missedAt a a p = ∅ := by intro p; simp [missedAt, onlyIn]
    have hT : allT rt a a nT = [] := by
      apply List.eq_nil_iff_forall_not_mem.2
      intro t ht
      have := moves_missed_start (allT_genuine rt a a nT t ht).moves
      rw [hempty] at this
      simp at this
    rw [hT, editsWith]
    simp [leftover, onlyIn]

/-! ## Supplied weights -/

theorem spanSum_perm {L L' : List (ℤ × ℤ)} (h : L.Perm L') : spanSum L = spanSum L' := by
  rw [spanSum_eq, spanSum_eq]; exact (h.map _).sum_eq

theorem countEdits_congr {w : Weights} (hw : Supplied w) (nT : ℤ) (types : Finset ℤ) {e e' : Edits}
    (h1 : e.additions.length = e'.additions.length)
    (h2 : e.substitutions.length = e'.substitutions.length)
    (h3 : (e.substitutions.map (fun s => |s.typeA - s.typeB|)).sum =
      (e'.substitutions.map (fun s => |s.typeA - s.typeB|)).sum)
    (h4 : e.transpositions.Perm e'.transpositions) :
    countEdits w nT types e = countEdits w nT types e' := by
  obtain ⟨ha, hs, ht⟩ := hw
  have k1 : w.a e.additions = w.a e'.additions := by rw [ha, weightA, weightA, h1]
  have k2 : ∀ x y, w.s e.substitutions x y = w.s e'.substitutions x y := by
    intro x y
    rcases hs with hs | hs
    · rw [hs, weightS, weightS, h2]
    · rw [hs, weightSScale, weightSScale, scalePairs, scalePairs, spanSum_eq, spanSum_eq,
        List.map_map, List.map_map]
      have : ((fun p : ℤ × ℤ => |p.1 - p.2|) ∘ fun s : Substitution => (s.typeA, s.typeB)) =
        fun s => |s.typeA - s.typeB| := rfl
      rw [this, h3]
  have k3 : w.t e.transpositions nT = w.t e'.transpositions nT := by
    rcases ht with ht | ht
    · rw [ht, weightT, weightT, h4.length_eq]
    · rw [ht, weightTScale, weightTScale, scalePairs, scalePairs, spanSum_perm (h4.map _)]
  unfold countEdits
  rw [k1, k3]
  simp only [k2]

theorem countP_sides (l : List Addition) :
    l.length = l.countP (fun x => decide (x.side = .a)) + l.countP (fun x => decide (x.side = .b)) := by
  induction l with
  | nil => rfl
  | cons x xs ih =>
    cases hx : x.side <;> simp [hx] <;> omega

/-! ## The metrics as formulas -/

theorem ratioOrOne_dec (x : ℚ) {D : ℤ} (hD : 0 < D) :
    ratioOrOne (.dec x) D = .ok (.dec (x / (D : ℚ))) := by
  have hne : (D : ℚ) ≠ 0 := by exact_mod_cast hD.ne'
  rw [ratioOrOne, if_pos hD, PyNum.truediv, PyNum.decDiv, if_neg hne]

theorem applyOneMinus_dec (om : Bool) (x : ℚ) :
    applyOneMinus om (.dec x) = .ok (.num (.dec (if om then 1 - x else x))) := by
  cases om <;> rfl

theorem boundarySim_eq {rt : Runtime} {kw : SimKw} {a b : Seg} {st : Statistics} {c : ℚ}
    (h : boundaryStatistics rt kw.boundaryFormat kw.nT kw.weight a b = .ok st)
    (hc : st.countEdits = .dec c) (hD : 0 < editCount st.edits + st.matches'.length) :
    boundarySimilarity rt kw a b =
      let D : ℚ := ((editCount st.edits + st.matches'.length : ℕ) : ℚ)
      if kw.returnParts then .ok (.bparts (.dec (D - c))
        (.int ((editCount st.edits + st.matches'.length : ℕ) : ℤ)) st.edits)
      else .ok (.num (.dec (if kw.oneMinus then 1 - (D - c) / D else (D - c) / D))) := by
  have hcast : (st.edits.additions.length : ℤ) + (st.edits.substitutions.length : ℤ) +
      (st.edits.transpositions.length : ℤ) + (st.matches'.length : ℤ) =
      ((editCount st.edits + st.matches'.length : ℕ) : ℤ) := by
    rw [editCount]; push_cast; rfl
  unfold boundarySimilarity
  rw [h]
  simp only [hcast, hc, PyNum.sub]
  by_cases hr : kw.returnParts = true
  · simp [hr]
  · have hp : (0 : ℤ) < ((editCount st.edits + st.matches'.length : ℕ) : ℤ) := by exact_mod_cast hD
    simp only [hr, Bool.false_eq_true, if_false, ratioOrOne_dec _ hp, applyOneMinus_dec,
      Int.cast_natCast]

theorem segmentationSim_eq {rt : Runtime} {kw : SimKw} {a b : Seg} {st : Statistics} {c : ℚ}
    (h : boundaryStatistics rt kw.boundaryFormat kw.nT kw.weight a b = .ok st)
    (hc : st.countEdits = .dec c) (hD : 0 < st.pbs * (st.boundaryTypes.card : ℤ)) :
    segmentationSimilarity rt kw a b =
      let D : ℚ := ((st.pbs * (st.boundaryTypes.card : ℤ) : ℤ) : ℚ)
      if kw.returnParts then .ok (.parts (.dec (D - c)) (.int (st.pbs * (st.boundaryTypes.card : ℤ))))
      else .ok (.num (.dec (if kw.oneMinus then 1 - (D - c) / D else (D - c) / D))) := by
  unfold segmentationSimilarity
  rw [h]
  simp only [hc, PyNum.sub]
  by_cases hr : kw.returnParts = true
  · simp [hr]
  · simp only [hr, Bool.false_eq_true, if_false, ratioOrOne_dec _ hD, applyOneMinus_dec]

/-- Taking a successful statistics call apart. -/
theorem boundaryStatistics_ok {rt : Runtime} {fmt : BoundaryFormat} {nT : ℤ} {w : Weights} {a b : Seg}
    {st : Statistics} (h : boundaryStatistics rt fmt nT w a b = .ok st) :
    ∃ sa sb, toBStrings fmt a b = .ok (sa, sb) ∧ statisticsOfStrings rt w nT sa sb = .ok st := by
  unfold boundaryStatistics at h
  cases hs : toBStrings fmt a b with
  | error e => rw [hs] at h; cases h
  | ok p => rw [hs] at h; exact ⟨p.1, p.2, rfl, h⟩

theorem boundarySim_stats {rt : Runtime} {kw : SimKw} {a b : Seg} {v : MetricOut}
    (h : boundarySimilarity rt kw a b = .ok v) :
    ∃ st, boundaryStatistics rt kw.boundaryFormat kw.nT kw.weight a b = .ok st := by
  unfold boundarySimilarity at h
  cases hs : boundaryStatistics rt kw.boundaryFormat kw.nT kw.weight a b with
  | error e => rw [hs] at h; cases h
  | ok st => exact ⟨st, rfl⟩

theorem segmentationSim_stats {rt : Runtime} {kw : SimKw} {a b : Seg} {v : MetricOut}
    (h : segmentationSimilarity rt kw a b = .ok v) :
    ∃ st, boundaryStatistics rt kw.boundaryFormat kw.nT kw.weight a b = .ok st := by
  unfold segmentationSimilarity at h
  cases hs : boundaryStatistics rt kw.boundaryFormat kw.nT kw.weight a b with
  | error e => rw [hs] at h; cases h
  | ok st => exact ⟨st, rfl⟩

/-- The facts about default statistics used for both metrics. -/
theorem default_facts {rt : Runtime} {fmt : BoundaryFormat} {nT : ℤ} {a b : Seg}
    {st : Statistics} (h : boundaryStatistics rt fmt nT .default a b = .ok st) :
    ∃ sa sb c, toBStrings fmt a b = .ok (sa, sb) ∧ sa.length = sb.length ∧
      st.edits = editsOf rt sa sb nT ∧ st.matches'.length = matchCount sa sb ∧
      st.countEdits = .dec c ∧ 0 ≤ c ∧ c ≤ editCount st.edits ∧
      (c = 0 ↔ editCount st.edits = 0) ∧
      (c = editCount st.edits ↔ st.edits.substitutions = [] ∧ st.edits.transpositions = []) ∧
      0 < editCount st.edits + st.matches'.length ∧
      st.pbs = (sb.length : ℤ) * ((identifyTypes sa sb).card : ℤ) ∧
      st.boundaryTypes = identifyTypes sa sb ∧
      0 < st.pbs * (st.boundaryTypes.card : ℤ) := by
  obtain ⟨sa, sb, h1, h2⟩ := boundaryStatistics_ok h
  obtain ⟨hl, hb, he, hce, hf, hba, hm, hp, hty⟩ := statistics_ok h2
  obtain ⟨c, hc, c0, c1, c2, c3⟩ := statistics_default h2
  have hne := statistics_types_ne h2
  have hml : st.matches'.length = matchCount sa sb := by rw [hm, matches_length rt hl]
  have hk : 0 < (identifyTypes sa sb).card := Finset.card_pos.2 (Finset.nonempty_iff_ne_empty.2 hne)
  have hn : 0 < sb.length := by
    obtain ⟨t, ht⟩ := Finset.nonempty_iff_ne_empty.2 hne
    obtain ⟨p, hp | hp⟩ := mem_identifyTypes.1 ht
    · by_contra hc
      rw [typesAt_beyond (by omega)] at hp; simp at hp
    · by_contra hc
      rw [typesAt_beyond (by omega)] at hp; simp at hp
  refine ⟨sa, sb, c, h1, hl, he, hml, hc, c0, c1, c2, c3, ?_, hp, hty, ?_⟩
  · rw [hml, he]; exact edits_matches_pos hl nT hne
  · rw [hp, hty]; positivity

/-- The bounds used for segmentation similarity. -/
theorem edits_pbs {rt : Runtime} {a b : BString} (hl : a.length = b.length)
    (hs : SharedTypes rt a b) (nT : ℤ) :
    editCount (editsOf rt a b nT) + matchCount a b ≤
      b.length * (identifyTypes a b).card * (identifyTypes a b).card ∧
    editCount (editsOf rt a b nT) ≤
      b.length * (identifyTypes a b).card * (identifyTypes a b).card := by
  have h := edits_le hl hs nT
  rw [hl] at h
  have h2 : b.length * (identifyTypes a b).card ≤
      b.length * (identifyTypes a b).card * (identifyTypes a b).card := by
    rcases Nat.eq_zero_or_pos (identifyTypes a b).card with h0 | h0
    · simp [h0]
    · exact Nat.le_mul_of_pos_right _ h0
  constructor <;> omega

/-- Boundaries of both strings are matches twice and misses once. -/
theorem count_all {a b : BString} (hl : a.length = b.length) :
    boundaryCount a + boundaryCount b =
      2 * matchCount a b + ∑ p ∈ Finset.range a.length, (missedAt a b p).card := by
  rw [boundaryCount, boundaryCount, matchCount, ← hl, Finset.mul_sum, ← Finset.sum_add_distrib,
    ← Finset.sum_add_distrib]
  refine Finset.sum_congr rfl (fun p _ => ?_)
  have h1 : (onlyIn a b p).card + (typesAt a p ∩ typesAt b p).card = (typesAt a p).card := by
    rw [onlyIn, Finset.card_sdiff_add_card_inter]
  have h2 : (onlyIn b a p).card + (typesAt a p ∩ typesAt b p).card = (typesAt b p).card := by
    rw [onlyIn, Finset.inter_comm, Finset.card_sdiff_add_card_inter]
  rw [missedAt, Finset.card_union_of_disjoint (onlyIn_disjoint a b p)]
  omega

theorem stats_den_pos {rt : Runtime} {fmt : BoundaryFormat} {nT : ℤ} {w : Weights} {a b : Seg}
    {st : Statistics} (h : boundaryStatistics rt fmt nT w a b = .ok st) :
    0 < (st.edits.additions.length : ℤ) + (st.edits.substitutions.length : ℤ) +
      (st.edits.transpositions.length : ℤ) + (st.matches'.length : ℤ) := by
  obtain ⟨sa, sb, h1, h2⟩ := boundaryStatistics_ok h
  obtain ⟨hl, _, he, _, _, _, hm, _, _⟩ := statistics_ok h2
  have := edits_matches_pos (rt := rt) hl nT (statistics_types_ne h2)
  rw [← he, ← matches_length rt hl, ← hm, editCount] at this
  exact_mod_cast this

theorem stats_pbs_pos {rt : Runtime} {fmt : BoundaryFormat} {nT : ℤ} {w : Weights} {a b : Seg}
    {st : Statistics} (h : boundaryStatistics rt fmt nT w a b = .ok st) :
    0 < st.pbs * (st.boundaryTypes.card : ℤ) := by
  obtain ⟨sa, sb, h1, h2⟩ := boundaryStatistics_ok h
  obtain ⟨hl, _, _, _, _, _, _, hp, hty⟩ := statistics_ok h2
  have hne := statistics_types_ne h2
  have hk : 0 < (identifyTypes sa sb).card := Finset.card_pos.2 (Finset.nonempty_iff_ne_empty.2 hne)
  have hn : 0 < sb.length := by
    obtain ⟨t, ht⟩ := Finset.nonempty_iff_ne_empty.2 hne
    obtain ⟨p, hp | hp⟩ := mem_identifyTypes.1 ht
    · by_contra hc
      rw [typesAt_beyond (by omega)] at hp; simp at hp
    · by_contra hc
      rw [typesAt_beyond (by omega)] at hp; simp at hp
  rw [hp, hty]; positivity

theorem ratioOrOne_val (x : PyNum) {D : ℤ} (hD : 0 < D) :
    ∃ v, ratioOrOne x D = .ok v ∧ v.val = x.val / (PyNum.int D).val := by
  have hne : (D : ℚ) ≠ 0 := by exact_mod_cast hD.ne'
  rw [ratioOrOne, if_pos hD]
  cases x <;> simp only [PyNum.truediv, PyNum.decDiv, PyNum.fltDiv, if_neg hne] <;>
    exact ⟨_, rfl, rfl⟩

theorem ratioOrOne_int (n : ℤ) {D : ℤ} (hD : 0 < D) :
    ∃ q, ratioOrOne (.int n) D = .ok (.flt q) := by
  have hne : (D : ℚ) ≠ 0 := by exact_mod_cast hD.ne'
  rw [ratioOrOne, if_pos hD]
  simp only [PyNum.truediv, PyNum.fltDiv, if_neg hne]
  exact ⟨_, rfl⟩

/-- When the default statistics exist. -/
theorem boundaryStatistics_exists {rt : Runtime} {fmt : BoundaryFormat} {nT : ℤ} {a b : Seg}
    {sa sb : BString} (h : toBStrings fmt a b = .ok (sa, sb)) (hl : sa.length = sb.length)
    (hn : nT ≠ 0) (ht : ∃ t, UsesType sa sb t) (hsmall : ∀ p, (missedAt sa sb p).card ≤ 256) :
    ∃ st, boundaryStatistics rt fmt nT .default a b = .ok st := by
  have hb := bed_ok rt (le_of_eq hl) nT (fun p _ => by
    have h1 := hsmall p
    rw [missedAt, Finset.card_union_of_disjoint (onlyIn_disjoint sa sb p)] at h1
    have h2 := card_onlyIn_split sa sb (allT rt sa sb nT) p
    have h3 := card_onlyIn_split sb sa (allT rt sa sb nT) p
    unfold Balanced
    omega)
  have hty : identifyTypes sa sb ≠ ∅ := by
    obtain ⟨t, ht⟩ := ht
    exact ne_empty_of_mem' (mem_identifyTypes.2 ht)
  obtain ⟨c, hc, _⟩ := default_count (rt := rt) hn hty
  rw [boundaryStatistics, h]
  simp only
  rw [statisticsOfStrings, if_neg (by rw [not_not]; exact hl)]
  simp only [hb, hc]
  exact ⟨_, rfl⟩

end SegEval
