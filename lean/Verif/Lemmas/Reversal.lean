import Verif.Lemmas.Formula
import Verif.Lemmas.Minimal
import Verif.Spec.Window
import Mathlib.Data.Finset.Card

/-!
# Reading a document backwards
-/

namespace SegEval

open Spec

theorem between_reverse (pat : List Bool) {i k : ℕ} (h : i + k ≤ pat.length) :
    between pat.reverse (pat.length - k - i) k = between pat i k := by
  unfold between
  rw [List.drop_reverse, List.take_reverse, List.count_reverse]
  have e1 : pat.length - (pat.length - k - i) = i + k := by omega
  rw [e1]
  have e2 : (pat.take (i + k)).length - k = i := by rw [List.length_take]; omega
  rw [e2, List.drop_take, Nat.add_sub_cancel_left]

theorem errors_reverse (E : List Bool → List Bool → ℕ → ℕ → Prop)
    [∀ p q k i, Decidable (E p q k i)]
    (hE : ∀ p q p' q' k i j, between p i k = between p' j k → between q i k = between q' j k →
      (E p q k i ↔ E p' q' k j)) (ph pr : List Bool) (hl : ph.length = pr.length) (k : ℕ) :
    ((Finset.range (windows (pr.reverse.length + 1) k)).filter (E ph.reverse pr.reverse k)).card =
      ((Finset.range (windows (pr.length + 1) k)).filter (E ph pr k)).card := by
  rw [List.length_reverse]
  have key : ∀ i < windows (pr.length + 1) k,
      pr.length - k - i < windows (pr.length + 1) k ∧ pr.length - k - (pr.length - k - i) = i ∧
      (E ph.reverse pr.reverse k (pr.length - k - i) ↔ E ph pr k i) := by
    intro i hi
    unfold windows at hi ⊢
    refine ⟨by omega, by omega, hE _ _ _ _ _ _ _ ?_ ?_⟩
    · rw [← hl]; exact between_reverse ph (by omega)
    · exact between_reverse pr (by omega)
  refine Finset.card_bij' (fun i _ => pr.length - k - i) (fun i _ => pr.length - k - i) ?_ ?_ ?_ ?_
  · intro i hi
    rw [Finset.mem_filter, Finset.mem_range] at hi ⊢
    obtain ⟨h1, h2, h3⟩ := key i hi.1
    obtain ⟨h4, h5, h6⟩ := key _ h1
    refine ⟨h1, h6.1 ?_⟩
    rw [h2]; exact hi.2
  · intro i hi
    rw [Finset.mem_filter, Finset.mem_range] at hi ⊢
    obtain ⟨h1, h2, h3⟩ := key i hi.1
    exact ⟨h1, h3.2 hi.2⟩
  · intro i hi
    rw [Finset.mem_filter, Finset.mem_range] at hi
    exact (key i hi.1).2.1
  · intro i hi
    rw [Finset.mem_filter, Finset.mem_range] at hi
    exact (key i hi.1).2.1

theorem pkErrors_reverse (ph pr : List Bool) (hl : ph.length = pr.length) (k : ℕ) :
    (pkErrors ph.reverse pr.reverse k).card = (pkErrors ph pr k).card := by
  refine errors_reverse PkError ?_ ph pr hl k
  intro p q p' q' k i j h1 h2
  unfold PkError; rw [h1, h2]

theorem wdErrors_reverse (ph pr : List Bool) (hl : ph.length = pr.length) (k : ℕ) :
    (wdErrors ph.reverse pr.reverse k).card = (wdErrors ph pr k).card := by
  refine errors_reverse WdError ?_ ph pr hl k
  intro p q p' q' k i j h1 h2
  unfold WdError; rw [h1, h2]

theorem padded_reverse (k : ℕ) (pat : List Bool) : padded k pat.reverse = (padded k pat).reverse := by
  simp [padded, List.append_assoc]

theorem usesWindow_reverse {kw : WinKw} {pr : List Bool} {w : ℤ} :
    UsesWindow kw pr.reverse w ↔ UsesWindow kw pr w := by
  unfold UsesWindow
  rw [List.length_reverse, List.count_reverse]

/-! ## Boundary strings -/

theorem typesAt_reverse {s : BString} {p : ℕ} (h : p < s.length) :
    typesAt s.reverse (s.length - 1 - p) = typesAt s p := by
  unfold typesAt
  rw [List.getElem?_reverse (by omega)]
  congr 2
  omega

theorem onlyIn_reverse {a b : BString} (hl : a.length = b.length) {p : ℕ} (h : p < a.length) :
    onlyIn a.reverse b.reverse (a.length - 1 - p) = onlyIn a b p := by
  unfold onlyIn
  rw [typesAt_reverse h]
  have : typesAt b.reverse (a.length - 1 - p) = typesAt b p := by
    rw [hl]; exact typesAt_reverse (by omega)
  rw [this]

/-- The transposition read backwards. -/
def mirror (n : ℕ) (t : Transposition) : Transposition := ⟨n - 1 - t.stop, n - 1 - t.start, t.type⟩

theorem genuine_mirror {a b : BString} (hl : a.length = b.length) {nT : ℤ} {t : Transposition}
    (h : Genuine a b nT t) : Genuine a.reverse b.reverse nT (mirror a.length t) := by
  have h1 := h.ordered
  have h2 := h.inRange
  have h3 := h.span
  refine ⟨by simp only [mirror]; omega, by simp only [mirror, List.length_reverse]; omega,
    by simp only [mirror]; omega, ?_⟩
  have e1 := onlyIn_reverse hl h2
  have e2 := onlyIn_reverse hl (p := t.start) (by omega)
  have e3 := onlyIn_reverse hl.symm (p := t.stop) (by omega)
  have e4 := onlyIn_reverse hl.symm (p := t.start) (by omega)
  rw [← hl] at e3 e4
  unfold Moves
  simp only [mirror]
  rw [e1, e2, e3, e4]
  rcases h.moves with ⟨m1, m2⟩ | ⟨m1, m2⟩
  · exact .inr ⟨m2, m1⟩
  · exact .inl ⟨m2, m1⟩

theorem disjoint_mirror {n : ℕ} {ts : List Transposition}
    (hr : ∀ t ∈ ts, t.start < n ∧ t.stop < n) (h : Spec.Disjoint ts) :
    Spec.Disjoint (ts.map (mirror n)) := by
  refine List.pairwise_map.2 ?_
  refine List.Pairwise.imp_of_mem ?_ h
  intro t u ht hu htu hty p hp
  obtain ⟨t1, t2⟩ := hr t ht
  obtain ⟨u1, u2⟩ := hr u hu
  refine htu hty (n - 1 - p) ?_
  unfold Touches at hp ⊢
  simp only [mirror] at hp
  omega

theorem oneType_reverse {a b : BString} (hl : a.length = b.length) {t : ℤ} (h : OneType a b t) :
    OneType a.reverse b.reverse t := by
  intro p
  by_cases hp : p < a.length
  · have e1 := onlyIn_reverse hl (p := a.length - 1 - p) (by omega)
    have e2 := onlyIn_reverse hl.symm (p := a.length - 1 - p) (by omega)
    rw [← hl] at e2
    have e : a.length - 1 - (a.length - 1 - p) = p := by omega
    rw [e] at e1 e2
    rw [missedAt, e1, e2]
    exact h _
  · rw [missedAt, onlyIn, onlyIn, typesAt_beyond (by rw [List.length_reverse]; omega),
      typesAt_beyond (s := b.reverse) (by rw [List.length_reverse]; omega)]
    simp

/-- With one type and adjacent transpositions as many are found as there can be. -/
theorem oneType_largest {rt : Runtime} {a b : BString} (hl : a.length = b.length)
    (hs : SharedTypes rt a b) {t : ℤ} (h1 : OneType a b t) {us : List Transposition}
    (hg : ∀ u ∈ us, Genuine a b 2 u) (hd : Spec.Disjoint us) :
    us.length ≤ (allT rt a b 2).length := by
  have hgl := greedy_largest (le_of_eq hl) hs h1 hg hd (a.length - 1) (le_refl _)
  have : countBelow us (a.length - 1) = us.length := by
    rw [countBelow, List.countP_eq_length]
    intro u hu
    have h1 := (hg u hu).ordered
    have h2 := (hg u hu).inRange
    simp only [decide_eq_true_eq]; omega
  rw [this] at hgl
  exact hgl

theorem sharedTypes_reverse {rt : Runtime} {a b : BString} (hl : a.length = b.length)
    (h : SharedTypes rt a b) : SharedTypes rt a.reverse b.reverse := by
  intro p t ht
  by_cases hp : p < a.length
  · have e1 := onlyIn_reverse hl (p := a.length - 1 - p) (by omega)
    have e2 := onlyIn_reverse hl.symm (p := a.length - 1 - p) (by omega)
    rw [← hl] at e2
    have e : a.length - 1 - (a.length - 1 - p) = p := by omega
    rw [e] at e1 e2
    rw [missedAt, e1, e2] at ht
    exact h _ t ht
  · rw [missedAt, onlyIn, onlyIn, typesAt_beyond (by rw [List.length_reverse]; omega),
      typesAt_beyond (s := b.reverse) (by rw [List.length_reverse]; omega)] at ht
    simp at ht

theorem transpositions_le_reverse {rt rt' : Runtime} {a b : BString} (hl : a.length = b.length)
    (hs : SharedTypes rt a b) (hs' : SharedTypes rt' a.reverse b.reverse) {t : ℤ}
    (h1 : OneType a b t) :
    (allT rt a b 2).length ≤ (allT rt' a.reverse b.reverse 2).length := by
  have hl' : a.reverse.length = b.reverse.length := by simp [hl]
  have := oneType_largest (us := (allT rt a b 2).map (mirror a.length)) hl' hs'
    (oneType_reverse hl h1) (by
      intro u hu
      obtain ⟨t, ht, rfl⟩ := List.mem_map.1 hu
      exact genuine_mirror hl (allT_genuine rt a b 2 t ht))
    (disjoint_mirror (fun t ht => by
        have g := allT_genuine rt a b 2 t ht
        have g1 := g.ordered
        have g2 := g.inRange
        omega) (allT_disjoint (le_of_eq hl) hs 2))
  rwa [List.length_map] at this

theorem sum_range_reverse (n : ℕ) (f g : ℕ → ℕ) (h : ∀ p < n, f (n - 1 - p) = g p) :
    ∑ p ∈ Finset.range n, f p = ∑ p ∈ Finset.range n, g p := by
  rw [← Finset.sum_range_reflect]
  exact Finset.sum_congr rfl (fun p hp => h p (Finset.mem_range.1 hp))

theorem matchCount_reverse {a b : BString} (hl : a.length = b.length) :
    matchCount a.reverse b.reverse = matchCount a b := by
  unfold matchCount
  rw [List.length_reverse]
  refine sum_range_reverse _ _ _ (fun p hp => ?_)
  rw [typesAt_reverse hp]
  have : typesAt b.reverse (a.length - 1 - p) = typesAt b p := by
    rw [hl]; exact typesAt_reverse (by omega)
  rw [this]

theorem missed_reverse {a b : BString} (hl : a.length = b.length) :
    ∑ p ∈ Finset.range a.reverse.length, (missedAt a.reverse b.reverse p).card =
      ∑ p ∈ Finset.range a.length, (missedAt a b p).card := by
  rw [List.length_reverse]
  refine sum_range_reverse _ _ _ (fun p hp => ?_)
  have e2 := onlyIn_reverse hl.symm (p := p) (by omega)
  rw [← hl] at e2
  rw [missedAt, onlyIn_reverse hl hp, e2, missedAt]

theorem usesType_reverse_of {a b : BString} (hl : a.length = b.length) {t : ℤ}
    (h : UsesType a b t) : UsesType a.reverse b.reverse t := by
  obtain ⟨p, h⟩ := h
  have hp : p < a.length := by
    by_contra hc
    rcases h with h | h <;> rw [typesAt_beyond (by omega)] at h <;> simp at h
  refine ⟨a.length - 1 - p, ?_⟩
  rw [typesAt_reverse hp]
  have : typesAt b.reverse (a.length - 1 - p) = typesAt b p := by
    rw [hl]; exact typesAt_reverse (by omega)
  rw [this]
  exact h

theorem usesType_reverse {a b : BString} (hl : a.length = b.length) (t : ℤ) :
    UsesType a.reverse b.reverse t ↔ UsesType a b t := by
  constructor
  · intro h
    have := usesType_reverse_of (by simp [hl]) h
    rwa [List.reverse_reverse, List.reverse_reverse] at this
  · exact usesType_reverse_of hl

theorem identifyTypes_reverse {a b : BString} (hl : a.length = b.length) :
    identifyTypes a.reverse b.reverse = identifyTypes a b := by
  ext t
  rw [mem_identifyTypes, mem_identifyTypes]
  exact usesType_reverse hl t

/-- What the metrics read off the edits is the same backwards. -/
theorem oneType_counts_reverse {rt rt' : Runtime} {a b : BString} (hl : a.length = b.length)
    (hs : SharedTypes rt a b) (hs' : SharedTypes rt' a.reverse b.reverse) {t : ℤ}
    (h1 : OneType a b t) :
    (editsOf rt a b 2).substitutions = [] ∧
    (editsOf rt' a.reverse b.reverse 2).substitutions = [] ∧
    (editsOf rt' a.reverse b.reverse 2).transpositions.length =
      (editsOf rt a b 2).transpositions.length ∧
    (editsOf rt' a.reverse b.reverse 2).additions.length =
      (editsOf rt a b 2).additions.length := by
  have hl' : a.reverse.length = b.reverse.length := by simp [hl]
  have hno : ∀ {rt : Runtime} {a b : BString}, OneType a b t →
      (editsOf rt a b 2).substitutions = [] := by
    intro rt a b h1
    rw [subs_nil_iff]
    intro p _
    by_contra hc
    rw [not_or] at hc
    exact oneType_not_blocked h1 _ p p ⟨hc, hc⟩
  have hT : (editsOf rt' a.reverse b.reverse 2).transpositions.length =
      (editsOf rt a b 2).transpositions.length := by
    refine le_antisymm ?_ (transpositions_le_reverse hl hs hs' h1)
    have := transpositions_le_reverse (rt := rt') (rt' := rt) hl' hs' (by
      rw [List.reverse_reverse, List.reverse_reverse]; exact hs) (oneType_reverse hl h1)
    rwa [List.reverse_reverse, List.reverse_reverse] at this
  refine ⟨hno h1, hno (oneType_reverse hl h1), hT, ?_⟩
  have s1 := sum_missed rt a b hl 2 hs
  have s2 := sum_missed rt' a.reverse b.reverse hl' 2 hs'
  rw [missed_reverse hl, s1] at s2
  rw [hno h1, hno (oneType_reverse hl h1), hT] at s2
  omega

theorem countEdits_spans {w : Weights} (hw : Supplied w) (nT : ℤ) (types : Finset ℤ) {e e' : Edits}
    (h1 : e.additions.length = e'.additions.length) (h2 : e.substitutions = e'.substitutions)
    (h3 : e.transpositions.length = e'.transpositions.length)
    (h4 : (e.transpositions.map (fun t => |(t.start : ℤ) - (t.stop : ℤ)|)).sum =
      (e'.transpositions.map (fun t => |(t.start : ℤ) - (t.stop : ℤ)|)).sum) :
    countEdits w nT types e = countEdits w nT types e' := by
  obtain ⟨ha, _, ht⟩ := hw
  have k1 : w.a e.additions = w.a e'.additions := by rw [ha, weightA, weightA, h1]
  have k3 : w.t e.transpositions nT = w.t e'.transpositions nT := by
    rcases ht with ht | ht
    · rw [ht, weightT, weightT, h3]
    · rw [ht, weightTScale, weightTScale, scalePairs, scalePairs, spanSum_eq, spanSum_eq,
        List.map_map, List.map_map]
      have : ((fun p : ℤ × ℤ => |p.1 - p.2|) ∘
        fun t : Transposition => ((t.start : ℤ), (t.stop : ℤ))) =
        fun t => |(t.start : ℤ) - (t.stop : ℤ)| := rfl
      rw [this, h4]
  unfold countEdits
  rw [k1, k3, h2]

theorem span_sum_two {a b : BString} (l : List Transposition) (h : ∀ t ∈ l, Genuine a b 2 t) :
    (l.map (fun t => |(t.start : ℤ) - (t.stop : ℤ)|)).sum = l.length := by
  induction l with
  | nil => simp
  | cons t ts ih =>
    have h2 := genuine_two (h t (by simp))
    rw [List.map_cons, List.sum_cons, ih (fun u hu => h u (by simp [hu])), h2, List.length_cons]
    push_cast
    have : ((t.start : ℤ) - (t.start + 1)) = -1 := by ring
    rw [this]; simp; ring

theorem oneType_bed {rt : Runtime} {a b : BString} (hl : a.length = b.length) {t : ℤ}
    (h1 : OneType a b t) (nT : ℤ) : boundaryEditDistance rt a b nT = .ok (editsOf rt a b nT) := by
  refine bed_ok rt (le_of_eq hl) nT (fun p _ => ?_)
  have h2 := Finset.card_le_card (h1 p)
  rw [missedAt, Finset.card_union_of_disjoint (onlyIn_disjoint a b p), Finset.card_singleton] at h2
  have h3 := card_onlyIn_split a b (allT rt a b nT) p
  have h4 := card_onlyIn_split b a (allT rt a b nT) p
  unfold Balanced
  omega

/-- Backwards the metrics see the same statistics. -/
theorem stats_reverse {rt rt' : Runtime} {w : Weights} (hw : Supplied w) {a b : BString}
    (hs : SharedTypes rt a b) (hs' : SharedTypes rt' a b) {t : ℤ} (h1 : OneType a b t) :
    SameStats (statisticsOfStrings rt w 2 a b) (statisticsOfStrings rt' w 2 a.reverse b.reverse) := by
  by_cases hl : a.length = b.length
  · have hl' : a.reverse.length = b.reverse.length := by simp [hl]
    have hsr := sharedTypes_reverse hl hs'
    obtain ⟨c1, c2, c3, c4⟩ := oneType_counts_reverse (rt := rt) (rt' := rt') hl hs hsr h1
    have hc := countEdits_spans hw 2 (identifyTypes a b) (e := editsOf rt a b 2)
      (e' := editsOf rt' a.reverse b.reverse 2) c4.symm (c1.trans c2.symm) c3.symm (by
        have e1 := span_sum_two _ (allT_genuine rt a b 2)
        have e2 := span_sum_two _ (allT_genuine rt' a.reverse b.reverse 2)
        have c3' : (allT rt' a.reverse b.reverse 2).length = (allT rt a b 2).length := c3
        rw [c3'] at e2
        exact e1.trans e2.symm)
    rw [statisticsOfStrings, statisticsOfStrings, if_neg (by rw [not_not]; exact hl),
      if_neg (by rw [not_not]; exact hl'), oneType_bed hl h1, oneType_bed hl' (oneType_reverse hl h1)]
    simp only
    rw [identifyTypes_reverse hl, ← hc]
    cases h3 : countEdits w 2 (identifyTypes a b) (editsOf rt a b 2) with
    | error e => exact .inl ⟨e, rfl, rfl⟩
    | ok c =>
      refine .inr ⟨_, _, rfl, rfl, ⟨rfl, ?_, ?_, ?_, rfl⟩⟩
      · simp only [editCount, c1, c2, c3, c4]
      · simp only
        rw [matches_length rt hl, matches_length rt' hl', matchCount_reverse hl]
      · simp only [List.length_reverse]
  · left
    refine ⟨.segmentationMetricError, ?_, ?_⟩
    · rw [statisticsOfStrings, if_pos hl]
    · rw [statisticsOfStrings, if_pos (by simpa using hl)]

end SegEval
