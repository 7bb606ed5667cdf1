import Verif.Lemmas.Locality
import Verif.Props.Formula
import Verif.Props.Compute

/-!
# C74: errors far apart do not influence each other; C75: corrections
-/

namespace SegEval.Props

open SegEval Spec

/-! ## C74 -/

/-- C74: if both strings agree on `n_t - 1` consecutive positions, the edits before and after these
are found independently of each other. -/
theorem C74_edits (rt rt₁ rt₂ : Runtime) (a₁ b₁ g a₂ b₂ : BString) (h1 : a₁.length = b₁.length)
    (h2 : a₂.length = b₂.length) (nT : ℤ) (hg : nT ≤ g.length + 1)
    (hs : SharedTypes rt (a₁ ++ (g ++ a₂)) (b₁ ++ (g ++ b₂))) (hs₁ : SharedTypes rt₁ a₁ b₁)
    (hs₂ : SharedTypes rt₂ a₂ b₂) :
    ((∃ e, boundaryEditDistance rt (a₁ ++ (g ++ a₂)) (b₁ ++ (g ++ b₂)) nT = .ok e) ↔
      (∃ e₁, boundaryEditDistance rt₁ a₁ b₁ nT = .ok e₁) ∧
      ∃ e₂, boundaryEditDistance rt₂ a₂ b₂ nT = .ok e₂) ∧
    ∀ e e₁ e₂, boundaryEditDistance rt (a₁ ++ (g ++ a₂)) (b₁ ++ (g ++ b₂)) nT = .ok e →
      boundaryEditDistance rt₁ a₁ b₁ nT = .ok e₁ → boundaryEditDistance rt₂ a₂ b₂ nT = .ok e₂ →
      e.transpositions.Perm
        (e₁.transpositions ++ e₂.transpositions.map (moved (a₁.length + g.length))) ∧
      e.additions.Perm (e₁.additions ++ e₂.additions) ∧
      e.substitutions.Perm (e₁.substitutions ++ e₂.substitutions) := by
  have hl : (a₁ ++ (g ++ a₂)).length = (b₁ ++ (g ++ b₂)).length := by simp [h1, h2]
  constructor
  · simp only [bed_iff _ (le_of_eq hl), bed_iff _ (le_of_eq h1), bed_iff _ (le_of_eq h2),
      exists_and_left, exists_eq, and_true]
    exact balanced_join h1 h2 hg hs hs₁ hs₂
  · intro e e₁ e₂ he he₁ he₂
    rw [bed_edits (le_of_eq hl) he, bed_edits (le_of_eq h1) he₁, bed_edits (le_of_eq h2) he₂]
    exact edits_join h1 h2 hg hs hs₁ hs₂

example : boundaryEditDistance .ascending ([{1}, ∅, {2}] ++ ([{1, 2}] ++ [{1}, {1}]))
      ([∅, {1}, {3}] ++ ([{1, 2}] ++ [∅, {1}])) 2 = .ok ⟨[⟨1, .a⟩], [⟨2, 3⟩], [⟨0, 1, 1⟩]⟩ ∧
    boundaryEditDistance .ascending [{1}, ∅, {2}] [∅, {1}, {3}] 2 =
      .ok ⟨[], [⟨2, 3⟩], [⟨0, 1, 1⟩]⟩ ∧
    boundaryEditDistance .ascending [{1}, {1}] [∅, {1}] 2 = .ok ⟨[⟨1, .a⟩], [], []⟩ := by
  decide +kernel

/-- C74: the agreeing stretch has to be that long: with `n_t = 3` a transposition leads across a
single agreeing position. -/
theorem C74_gap_needed :
    boundaryEditDistance .ascending ([{1}] ++ ([∅] ++ [∅])) ([∅] ++ ([∅] ++ [{1}])) 3 =
      .ok ⟨[], [], [⟨0, 2, 1⟩]⟩ ∧
    boundaryEditDistance .ascending [{1}] [∅] 3 = .ok ⟨[⟨1, .a⟩], [], []⟩ ∧
    boundaryEditDistance .ascending [∅] [{1}] 3 = .ok ⟨[⟨1, .b⟩], [], []⟩ := by decide +kernel

theorem boundary_value {rt : Runtime} {kw : SimKw} (hw : kw.weight = .default)
    (hr : kw.returnParts = false) (ho : kw.oneMinus = false) {a b : Seg} {sa sb : BString}
    (ha : Denotes kw.boundaryFormat a sa) (hb : Denotes kw.boundaryFormat b sb) {x : ℚ}
    (h : Returns (boundarySimilarity rt kw a b) x) :
    sa.length = sb.length ∧ (∃ t, UsesType sa sb t) ∧
    boundaryEditDistance rt sa sb kw.nT = .ok (editsOf rt sa sb kw.nT) ∧
    0 < editCount (editsOf rt sa sb kw.nT) + matchCount sa sb ∧
    ∀ mx mn, Extremes sa sb mx mn → x = scriptCredit kw.nT mx mn (matchCount sa sb)
      (editsOf rt sa sb kw.nT) / (editCount (editsOf rt sa sb kw.nT) + matchCount sa sb) := by
  have hx := h
  obtain ⟨v, hv, rfl⟩ := h
  obtain ⟨st, hst⟩ := boundarySim_stats hv
  rw [hw] at hst
  obtain ⟨sa', sb', c, h1, hl, hed, hml, hc, _, _, _, _, hpos, _⟩ := default_facts hst
  rw [toBStrings_denotes ha hb, Except.ok.injEq, Prod.mk.injEq] at h1
  obtain ⟨rfl, rfl⟩ := h1
  rw [boundaryStatistics_denotes ha hb] at hst
  obtain ⟨_, hbed, he', _⟩ := statistics_ok hst
  obtain ⟨t, ht⟩ := Finset.nonempty_iff_ne_empty.2 (statistics_types_ne hst)
  refine ⟨hl, ⟨t, mem_identifyTypes.1 ht⟩, hbed, by rw [← he', ← hml]; exact hpos, fun mx mn hm => ?_⟩
  exact C64_boundary rt kw hw hr ho a b sa sb ha hb mx mn hm _ hbed _ hx

theorem segmentation_value {rt : Runtime} {kw : SimKw} (hw : kw.weight = .default)
    (hr : kw.returnParts = false) (ho : kw.oneMinus = false) {a b : Seg} {sa sb : BString}
    (ha : Denotes kw.boundaryFormat a sa) (hb : Denotes kw.boundaryFormat b sb) {x : ℚ}
    (h : Returns (segmentationSimilarity rt kw a b) x) :
    sa.length = sb.length ∧ (∃ t, UsesType sa sb t) ∧
    boundaryEditDistance rt sa sb kw.nT = .ok (editsOf rt sa sb kw.nT) ∧
    ∀ mx mn, Extremes sa sb mx mn → x = 1 - scriptCost kw.nT mx mn
      (editsOf rt sa sb kw.nT) /
        (sa.length * (identifyTypes sa sb).card * (identifyTypes sa sb).card) := by
  have hx := h
  obtain ⟨v, hv, rfl⟩ := h
  obtain ⟨st, hst⟩ := segmentationSim_stats hv
  rw [hw] at hst
  obtain ⟨sa', sb', c, h1, hl, hed, hml, hc, _⟩ := default_facts hst
  rw [toBStrings_denotes ha hb, Except.ok.injEq, Prod.mk.injEq] at h1
  obtain ⟨rfl, rfl⟩ := h1
  rw [boundaryStatistics_denotes ha hb] at hst
  obtain ⟨_, hbed, he', _⟩ := statistics_ok hst
  obtain ⟨t, ht⟩ := Finset.nonempty_iff_ne_empty.2 (statistics_types_ne hst)
  refine ⟨hl, ⟨t, mem_identifyTypes.1 ht⟩, hbed, fun mx mn hm => ?_⟩
  exact C64_segmentation rt kw hw hr ho a b sa sb ha hb mx mn hm _ (fun t => mem_identifyTypes) _ hbed
    _ hx

theorem extremes_exist {a b : BString} (h : ∃ t, UsesType a b t) :
    ∃ mx mn, Extremes a b mx mn := by
  have hne : (identifyTypes a b).Nonempty := h.imp fun _ => mem_identifyTypes.2
  obtain ⟨x, hx, hx'⟩ := Finset.exists_mem_eq_sup' hne id
  obtain ⟨y, hy, hy'⟩ := Finset.exists_mem_eq_inf' hne id
  refine ⟨x, y, mem_identifyTypes.1 hx, mem_identifyTypes.1 hy, fun t ht => ?_, fun t ht => ?_⟩
  · exact (Finset.le_sup' id (mem_identifyTypes.2 ht)).trans (le_of_eq hx')
  · exact (le_of_eq hy'.symm).trans (Finset.inf'_le id (mem_identifyTypes.2 ht))

theorem _root_.SegEval.Spec.Extremes.same {a b a' b' : BString} {mx mn : ℤ} (h : Extremes a b mx mn)
    (hs : SameTypes a b a' b') : Extremes a' b' mx mn :=
  ⟨(hs _).1 h.usedMax, (hs _).1 h.usedMin, fun t ht => h.le_max t ((hs t).2 ht),
    fun t ht => h.min_le t ((hs t).2 ht)⟩

theorem sum_map_moved (k : ℕ) (nT : ℤ) (l : List Transposition) :
    ((l.map (moved k)).map (transpositionCost nT)).sum = (l.map (transpositionCost nT)).sum := by
  rw [List.map_map]
  congr 1
  refine List.map_congr_left fun t _ => ?_
  simp only [Function.comp, transpositionCost, moved]
  push_cast
  ring

theorem cost_join {rt : Runtime} {a₁ b₁ g a₂ b₂ : BString} (h1 : a₁.length = b₁.length)
    (h2 : a₂.length = b₂.length) {nT : ℤ} (hg : nT ≤ g.length + 1)
    (hs : SharedTypes rt (a₁ ++ (g ++ a₂)) (b₁ ++ (g ++ b₂))) (mx mn : ℤ) :
    scriptCost nT mx mn (editsOf rt (a₁ ++ (g ++ a₂)) (b₁ ++ (g ++ b₂)) nT) =
      scriptCost nT mx mn (editsOf rt a₁ b₁ nT) + scriptCost nT mx mn (editsOf rt a₂ b₂ nT) ∧
    editCount (editsOf rt (a₁ ++ (g ++ a₂)) (b₁ ++ (g ++ b₂)) nT) =
      editCount (editsOf rt a₁ b₁ nT) + editCount (editsOf rt a₂ b₂ nT) := by
  obtain ⟨p1, p2, p3⟩ := edits_join h1 h2 hg hs ((part_left h1 hg).shared hs)
    ((part_right h1 h2 hg).shared hs)
  constructor
  · rw [scriptCost, scriptCost, scriptCost, (p1.map _).sum_eq, p2.length_eq, (p3.map _).sum_eq,
      List.map_append, List.map_append, List.sum_append, List.sum_append, List.length_append,
      sum_map_moved]
    push_cast
    ring
  · rw [editCount, editCount, editCount, p1.length_eq, p2.length_eq, p3.length_eq]
    simp only [List.length_append, List.length_map]
    omega

theorem mediant_min {x y d e f : ℚ} (hd : 0 < d) (he : 0 < e) (hf : 0 ≤ f) (hx : x ≤ 1) :
    min x y ≤ (x * d + y * e + f) / (d + e + f) := by
  rw [le_div_iff₀ (by linarith)]
  have m1 := mul_le_mul_of_nonneg_right (min_le_left x y) hd.le
  have m2 := mul_le_mul_of_nonneg_right (min_le_right x y) he.le
  have m3 := mul_le_mul_of_nonneg_right ((min_le_left x y).trans hx) hf
  linarith

theorem mediant_max {x y d e : ℚ} (hd : 0 < d) (he : 0 < e) :
    (x * d + y * e) / (d + e) ≤ max x y := by
  rw [div_le_iff₀ (by linarith)]
  have m1 := mul_le_mul_of_nonneg_right (le_max_left x y) hd.le
  have m2 := mul_le_mul_of_nonneg_right (le_max_right x y) he.le
  linarith

theorem length_of_types {a b : BString} (hl : a.length = b.length) (h : ∃ t, UsesType a b t) :
    0 < a.length := by
  obtain ⟨t, p, hp | hp⟩ := h
  · by_contra hc
    rw [typesAt_beyond (by omega)] at hp; simp at hp
  · by_contra hc
    rw [typesAt_beyond (by omega)] at hp; simp at hp

theorem segLen {rt : Runtime} {kw : SimKw} {a b : Seg} {sa sb : BString}
    (ha : Denotes kw.boundaryFormat a sa) (hb : Denotes kw.boundaryFormat b sb) {x : ℚ}
    (h : Returns (segmentationSimilarity rt kw a b) x) : sa.length = sb.length := by
  obtain ⟨v, hv, rfl⟩ := h
  obtain ⟨st, hst⟩ := segmentationSim_stats hv
  rw [boundaryStatistics_denotes ha hb] at hst
  exact (statistics_ok hst).1

/-- A larger range of types makes substitutions cheaper. -/
theorem scriptCost_range (nT : ℤ) {mx mn mx' mn' : ℤ} (h : mx ≤ mx') (h' : mn' ≤ mn) (h0 : mn ≤ mx)
    (e : Edits) : scriptCost nT mx' mn' e ≤ scriptCost nT mx mn e := by
  rw [scriptCost, scriptCost, sum_substitutionCost, sum_substitutionCost]
  have hp : (0 : ℚ) < (mx - mn + 1 : ℤ) := by exact_mod_cast (by omega : 0 < mx - mn + 1)
  have hle : ((mx - mn + 1 : ℤ) : ℚ) ≤ (mx' - mn' + 1 : ℤ) := by
    exact_mod_cast (by omega : mx - mn + 1 ≤ mx' - mn' + 1)
  have hs : (0 : ℚ) ≤ ((e.substitutions.map (fun s => |s.typeA - s.typeB|)).sum : ℤ) := by
    exact_mod_cast List.sum_nonneg (by
      intro x hx; obtain ⟨s, _, rfl⟩ := List.mem_map.1 hx; exact abs_nonneg _)
  have := div_le_div_of_nonneg_left hs hp hle
  linarith

theorem _root_.SegEval.PartOf.uses {a b : BString} {nT : ℤ} {k : ℕ} {a' b' : BString} (h : PartOf a b nT k a' b')
    {t : ℤ} (ht : UsesType a' b' t) : UsesType a b t := by
  obtain ⟨p, hp | hp⟩ := ht
  · by_cases hl : p < a'.length
    · exact ⟨p + k, .inl (h.left p hl ▸ hp)⟩
    · rw [typesAt_beyond (by omega)] at hp; simp at hp
  · by_cases hl : p < a'.length
    · exact ⟨p + k, .inr (h.right p hl ▸ hp)⟩
    · rw [typesAt_beyond (by have := h.len; omega)] at hp; simp at hp

/-- What the edits of a part cost in the range of types of the whole. -/
theorem _root_.SegEval.PartOf.cost {a b : BString} {nT : ℤ} {k : ℕ} {a' b' : BString} (h : PartOf a b nT k a' b')
    {mx mn mx' mn' : ℤ} (hm : Extremes a b mx mn) (hm' : Extremes a' b' mx' mn') (e : Edits) :
    scriptCost nT mx mn e ≤ scriptCost nT mx' mn' e :=
  scriptCost_range nT (hm.le_max _ (h.uses hm'.usedMax)) (hm.min_le _ (h.uses hm'.usedMin))
    (hm'.le_max _ hm'.usedMin) e

/-- C74: the similarity of a document is at least that of its worse part; without boundaries in
between, and if both parts use all types, it is at most that of its better part. -/
theorem C74_boundary (rt : Runtime) (kw : SimKw) (hw : kw.weight = .default)
    (hr : kw.returnParts = false) (ho : kw.oneMinus = false) (a b a' b' a'' b'' : Seg)
    (a₁ b₁ g a₂ b₂ : BString) (ha : Denotes kw.boundaryFormat a (a₁ ++ (g ++ a₂)))
    (hb : Denotes kw.boundaryFormat b (b₁ ++ (g ++ b₂))) (ha₁ : Denotes kw.boundaryFormat a' a₁)
    (hb₁ : Denotes kw.boundaryFormat b' b₁) (ha₂ : Denotes kw.boundaryFormat a'' a₂)
    (hb₂ : Denotes kw.boundaryFormat b'' b₂) (hg : kw.nT ≤ g.length + 1)
    (hs : SharedTypes rt (a₁ ++ (g ++ a₂)) (b₁ ++ (g ++ b₂))) (x x₁ x₂ : ℚ)
    (h : Returns (boundarySimilarity rt kw a b) x)
    (h₁ : Returns (boundarySimilarity rt kw a' b') x₁)
    (h₂ : Returns (boundarySimilarity rt kw a'' b'') x₂) :
    min x₁ x₂ ≤ x ∧
    (boundaryCount g = 0 → SameTypes (a₁ ++ (g ++ a₂)) (b₁ ++ (g ++ b₂)) a₁ b₁ →
      SameTypes (a₁ ++ (g ++ a₂)) (b₁ ++ (g ++ b₂)) a₂ b₂ → x ≤ max x₁ x₂) := by
  have r₁ := C17_range rt kw hw a' b' x₁ h₁
  obtain ⟨-, ht, -, hp, hx⟩ := boundary_value hw hr ho ha hb h
  obtain ⟨l1, u1, -, hp₁, hx₁⟩ := boundary_value hw hr ho ha₁ hb₁ h₁
  obtain ⟨l2, u2, -, hp₂, hx₂⟩ := boundary_value hw hr ho ha₂ hb₂ h₂
  obtain ⟨mx, mn, hm⟩ := extremes_exist ht
  obtain ⟨mx₁, mn₁, hm₁⟩ := extremes_exist u1
  obtain ⟨mx₂, mn₂, hm₂⟩ := extremes_exist u2
  obtain ⟨c, d⟩ := cost_join l1 l2 hg hs mx mn
  have hx := hx _ _ hm
  rw [scriptCredit_eq, c, d, matchCount_join l1] at hx
  have q₁ : (0 : ℚ) < editCount (editsOf rt a₁ b₁ kw.nT) + matchCount a₁ b₁ := by exact_mod_cast hp₁
  have q₂ : (0 : ℚ) < editCount (editsOf rt a₂ b₂ kw.nT) + matchCount a₂ b₂ := by exact_mod_cast hp₂
  have hG : (0 : ℚ) ≤ boundaryCount g := by positivity
  have hD : x * (editCount (editsOf rt a₁ b₁ kw.nT) + matchCount a₁ b₁ +
      (editCount (editsOf rt a₂ b₂ kw.nT) + matchCount a₂ b₂) + boundaryCount g) =
      editCount (editsOf rt a₁ b₁ kw.nT) + matchCount a₁ b₁ +
      (editCount (editsOf rt a₂ b₂ kw.nT) + matchCount a₂ b₂) + boundaryCount g -
      (scriptCost kw.nT mx mn (editsOf rt a₁ b₁ kw.nT) +
        scriptCost kw.nT mx mn (editsOf rt a₂ b₂ kw.nT)) := by
    rw [hx, div_mul_eq_mul_div, div_eq_iff (by push_cast; linarith)]
    push_cast
    ring
  constructor
  · have e₁ := hx₁ _ _ hm₁
    have e₂ := hx₂ _ _ hm₂
    rw [scriptCredit_eq, eq_div_iff q₁.ne'] at e₁
    rw [scriptCredit_eq, eq_div_iff q₂.ne'] at e₂
    push_cast at e₁ e₂
    have k₁ := PartOf.cost (part_left (g := g) (a₂ := a₂) (b₂ := b₂) l1 hg) hm hm₁
      (editsOf rt a₁ b₁ kw.nT)
    have k₂ := PartOf.cost (part_right l1 l2 hg) hm hm₂ (editsOf rt a₂ b₂ kw.nT)
    refine (mediant_min q₁ q₂ hG r₁.2 (y := x₂)).trans ?_
    rw [div_le_iff₀ (by linarith), hD]
    linarith
  · intro h0 ht₁ ht₂
    have e₁ := hx₁ _ _ (hm.same ht₁)
    have e₂ := hx₂ _ _ (hm.same ht₂)
    rw [scriptCredit_eq, eq_div_iff q₁.ne'] at e₁
    rw [scriptCredit_eq, eq_div_iff q₂.ne'] at e₂
    push_cast at e₁ e₂
    rw [h0] at hD
    refine le_trans ?_ (mediant_max (x := x₁) (y := x₂) q₁ q₂)
    rw [le_div_iff₀ (by linarith)]
    push_cast at hD
    linarith

/-- C74: the same for segmentation similarity. -/
theorem C74_segmentation (rt : Runtime) (kw : SimKw) (hw : kw.weight = .default)
    (hr : kw.returnParts = false) (ho : kw.oneMinus = false) (a b a' b' a'' b'' : Seg)
    (a₁ b₁ g a₂ b₂ : BString) (ha : Denotes kw.boundaryFormat a (a₁ ++ (g ++ a₂)))
    (hb : Denotes kw.boundaryFormat b (b₁ ++ (g ++ b₂))) (ha₁ : Denotes kw.boundaryFormat a' a₁)
    (hb₁ : Denotes kw.boundaryFormat b' b₁) (ha₂ : Denotes kw.boundaryFormat a'' a₂)
    (hb₂ : Denotes kw.boundaryFormat b'' b₂) (hg : kw.nT ≤ g.length + 1)
    (hs : SharedTypes rt (a₁ ++ (g ++ a₂)) (b₁ ++ (g ++ b₂))) (x x₁ x₂ : ℚ)
    (h : Returns (segmentationSimilarity rt kw a b) x)
    (h₁ : Returns (segmentationSimilarity rt kw a' b') x₁)
    (h₂ : Returns (segmentationSimilarity rt kw a'' b'') x₂) :
    min x₁ x₂ ≤ x := by
  have P₁ := part_left (g := g) (a₂ := a₂) (b₂ := b₂) (segLen ha₁ hb₁ h₁) hg
  have P₂ := part_right (g := g) (segLen ha₁ hb₁ h₁) (segLen ha₂ hb₂ h₂) hg
  have r₁ := C20_range rt kw hw a' b' a₁ b₁ ha₁ hb₁ (P₁.shared hs) x₁ h₁
  have r₂ := C20_range rt kw hw a'' b'' a₂ b₂ ha₂ hb₂ (P₂.shared hs) x₂ h₂
  obtain ⟨-, ht, -, hx⟩ := segmentation_value hw hr ho ha hb h
  obtain ⟨l1, u1, -, hx₁⟩ := segmentation_value hw hr ho ha₁ hb₁ h₁
  obtain ⟨l2, u2, -, hx₂⟩ := segmentation_value hw hr ho ha₂ hb₂ h₂
  obtain ⟨mx, mn, hm⟩ := extremes_exist ht
  obtain ⟨mx₁, mn₁, hm₁⟩ := extremes_exist u1
  obtain ⟨mx₂, mn₂, hm₂⟩ := extremes_exist u2
  obtain ⟨c, -⟩ := cost_join l1 l2 hg hs mx mn
  have hx := hx _ _ hm
  have hx₁ := hx₁ _ _ hm₁
  have hx₂ := hx₂ _ _ hm₂
  have k₁ := PartOf.cost P₁ hm hm₁ (editsOf rt a₁ b₁ kw.nT)
  have k₂ := PartOf.cost P₂ hm hm₂ (editsOf rt a₂ b₂ kw.nT)
  rw [c] at hx
  have s1 : (identifyTypes a₁ b₁).card ≤ (identifyTypes (a₁ ++ (g ++ a₂)) (b₁ ++ (g ++ b₂))).card :=
    Finset.card_le_card fun t ht => mem_identifyTypes.2 (PartOf.uses P₁ (mem_identifyTypes.1 ht))
  have s2 : (identifyTypes a₂ b₂).card ≤ (identifyTypes (a₁ ++ (g ++ a₂)) (b₁ ++ (g ++ b₂))).card :=
    Finset.card_le_card fun t ht => mem_identifyTypes.2 (PartOf.uses P₂ (mem_identifyTypes.1 ht))
  have p1 : 0 < (identifyTypes a₁ b₁).card := Finset.card_pos.2 (u1.imp fun _ => mem_identifyTypes.2)
  have p2 : 0 < (identifyTypes a₂ b₂).card := Finset.card_pos.2 (u2.imp fun _ => mem_identifyTypes.2)
  have n1 : 0 < a₁.length := length_of_types l1 u1
  have n2 : 0 < a₂.length := length_of_types l2 u2
  generalize (identifyTypes (a₁ ++ (g ++ a₂)) (b₁ ++ (g ++ b₂))).card = k at *
  generalize (identifyTypes a₁ b₁).card = k1 at *
  generalize (identifyTypes a₂ b₂).card = k2 at *
  have hk1 : (0 : ℚ) < k1 := by exact_mod_cast p1
  have hk2 : (0 : ℚ) < k2 := by exact_mod_cast p2
  have hs1 : (k1 : ℚ) ≤ k := by exact_mod_cast s1
  have hs2 : (k2 : ℚ) ≤ k := by exact_mod_cast s2
  have hk' : (0 : ℚ) < k := hk1.trans_le hs1
  have hn1 : (0 : ℚ) < a₁.length := by exact_mod_cast n1
  have hn2 : (0 : ℚ) < a₂.length := by exact_mod_cast n2
  have q₁ : (0 : ℚ) < a₁.length * k * k := by positivity
  have q₂ : (0 : ℚ) < a₂.length * k * k := by positivity
  have hG : (0 : ℚ) ≤ g.length * k * k := by positivity
  have e₁ : scriptCost kw.nT mx₁ mn₁ (editsOf rt a₁ b₁ kw.nT) ≤ (1 - x₁) * (a₁.length * k * k) := by
    have : scriptCost kw.nT mx₁ mn₁ (editsOf rt a₁ b₁ kw.nT) = (1 - x₁) * (a₁.length * k1 * k1) := by
      rw [hx₁, sub_sub_cancel, div_mul_cancel₀ _ (by positivity)]
    rw [this]
    refine mul_le_mul_of_nonneg_left ?_ (by linarith [r₁.2])
    gcongr
  have e₂ : scriptCost kw.nT mx₂ mn₂ (editsOf rt a₂ b₂ kw.nT) ≤ (1 - x₂) * (a₂.length * k * k) := by
    have : scriptCost kw.nT mx₂ mn₂ (editsOf rt a₂ b₂ kw.nT) = (1 - x₂) * (a₂.length * k2 * k2) := by
      rw [hx₂, sub_sub_cancel, div_mul_cancel₀ _ (by positivity)]
    rw [this]
    refine mul_le_mul_of_nonneg_left ?_ (by linarith [r₂.2])
    gcongr
  have hlen : (((a₁ ++ (g ++ a₂)).length : ℕ) : ℚ) * k * k =
      a₁.length * k * k + a₂.length * k * k + g.length * k * k := by
    simp only [List.length_append]
    push_cast
    ring
  rw [hlen] at hx
  refine (mediant_min q₁ q₂ hG r₁.2 (y := x₂)).trans ?_
  rw [hx, div_le_iff₀ (by linarith), sub_mul, div_mul_cancel₀ _ (by linarith)]
  linarith

/-- In the formats with one boundary type, pairs with boundaries use the same types. -/
theorem sameTypes_of {fmt : BoundaryFormat} (hf : fmt ≠ .sets) {a b a' b' : Seg}
    {sa sb sa' sb' : BString} (ha : Denotes fmt a sa) (hb : Denotes fmt b sb)
    (ha' : Denotes fmt a' sa') (hb' : Denotes fmt b' sb') (h : ∃ t, UsesType sa sb t)
    (h' : ∃ t, UsesType sa' sb' t) : SameTypes sa sb sa' sb' := by
  have one : ∀ {a b : Seg} {sa sb : BString}, Denotes fmt a sa → Denotes fmt b sb →
      ∀ t, UsesType sa sb t → t = 1 := by
    rintro a b sa sb ha hb t ⟨p, hp | hp⟩
    · simpa using denotes_types ha hf p hp
    · simpa using denotes_types hb hf p hp
  obtain ⟨u, hu⟩ := h
  obtain ⟨v, hv⟩ := h'
  have eu := one ha hb u hu
  have ev := one ha' hb' v hv
  subst eu; subst ev
  intro t
  constructor
  · intro ht; rw [one ha hb t ht]; exact hv
  · intro ht; rw [one ha' hb' t ht]; exact hu

theorem massPat_append (l₁ l₂ : List ℤ) (h₁ : l₁ ≠ []) (h₂ : l₂ ≠ []) :
    massPat (l₁ ++ l₂) = massPat l₁ ++ true :: massPat l₂ := by
  induction l₁ with
  | nil => exact absurd rfl h₁
  | cons m l ih =>
    by_cases hl : l = []
    · subst hl
      rw [List.singleton_append, massPat_cons _ _ h₂]; rfl
    · rw [List.cons_append, massPat_cons _ _ (by simp [hl]), massPat_cons _ _ hl, ih hl]
      simp

/-- Joining two lists of masses puts a boundary between the two documents. -/
theorem denotes_append {t₁ t₂ t : Bool} {l₁ l₂ : List Obj} {s₁ s₂ : BString}
    (h₁ : Denotes .mass (.ints t₁ l₁) s₁) (h₂ : Denotes .mass (.ints t₂ l₂) s₂) :
    Denotes .mass (.ints t (l₁ ++ l₂)) (s₁ ++ ([{1}] ++ s₂)) := by
  obtain ⟨p₁, h₁, rfl⟩ := h₁
  obtain ⟨p₂, h₂, rfl⟩ := h₂
  refine ⟨p₁ ++ true :: p₂, ?_, by simp⟩
  simp only [Means, massMeans_iff] at h₁ h₂ ⊢
  obtain ⟨a1, a2, rfl⟩ := h₁
  obtain ⟨b1, b2, rfl⟩ := h₂
  refine ⟨by simpa using fun h => absurd (by simp [h]) a1, ?_, ?_⟩
  · intro m hm
    rw [List.map_append, List.mem_append] at hm
    exact hm.elim (a2 m) (b2 m)
  · rw [List.map_append, massPat_append _ _ a1 b1]

/-- C74: two documents segmented by the same two coders, one after the other: with the default
window (or none) boundary and segmentation similarity of the whole are at least those of the worse
of the two. -/
theorem C74_join (rt : Runtime) (kw : SimKw) (hw : kw.weight = .default)
    (hr : kw.returnParts = false) (ho : kw.oneMinus = false) (hf : kw.boundaryFormat = .mass)
    (h2 : kw.nT ≤ 2) (t t' t'' : Bool) (m n m' n' : List Obj)
    (sm sn sm' sn' : BString) (hm : Denotes .mass (.ints t m) sm) (hn : Denotes .mass (.ints t n) sn)
    (hm' : Denotes .mass (.ints t' m') sm') (hn' : Denotes .mass (.ints t' n') sn') (x x₁ x₂ : ℚ) :
    (Returns (boundarySimilarity rt kw (.ints t m) (.ints t n)) x₁ →
      Returns (boundarySimilarity rt kw (.ints t' m') (.ints t' n')) x₂ →
      Returns (boundarySimilarity rt kw (.ints t'' (m ++ m')) (.ints t'' (n ++ n'))) x →
      min x₁ x₂ ≤ x) ∧
    (Returns (segmentationSimilarity rt kw (.ints t m) (.ints t n)) x₁ →
      Returns (segmentationSimilarity rt kw (.ints t' m') (.ints t' n')) x₂ →
      Returns (segmentationSimilarity rt kw (.ints t'' (m ++ m')) (.ints t'' (n ++ n'))) x →
      min x₁ x₂ ≤ x) := by
  have hg : kw.nT ≤ ([{1}] : BString).length + 1 := by simpa using h2
  have hne : kw.boundaryFormat ≠ .sets := by rw [hf]; decide
  have hM := denotes_append (t := t'') hm hm'
  have hN := denotes_append (t := t'') hn hn'
  rw [← hf] at hm hn hm' hn' hM hN
  have hs := denotes_shared rt hM hN hne
  exact ⟨fun h₁ h₂ h => (C74_boundary rt kw hw hr ho _ _ _ _ _ _ _ _ _ _ _ hM hN hm hn hm' hn' hg hs
      x x₁ x₂ h h₁ h₂).1,
    fun h₁ h₂ h => C74_segmentation rt kw hw hr ho _ _ _ _ _ _ _ _ _ _ _ hM hN hm hn hm' hn' hg hs
      x x₁ x₂ h h₁ h₂⟩

/-- Two documents of seven and five units: 3/4 and 1/2, together 3/4 (one more boundary agrees). -/
example : Returns (boundarySimilarity .ascending {} (massSeg [2, 3, 2]) (massSeg [2, 4, 1])) (3 / 4) ∧
    Returns (boundarySimilarity .ascending {} (massSeg [2, 3]) (massSeg [3, 2])) (1 / 2) ∧
    Returns (boundarySimilarity .ascending {} (massSeg [2, 3, 2, 2, 3]) (massSeg [2, 4, 1, 3, 2]))
      (3 / 4) :=
  ⟨⟨.dec (3 / 4), by decide +kernel, by norm_num [PyNum.val]⟩,
    ⟨.dec (1 / 2), by decide +kernel, by norm_num [PyNum.val]⟩,
    ⟨.dec (3 / 4), by decide +kernel, by norm_num [PyNum.val]⟩⟩

/-! ## C75 -/

theorem subs_cost (rt : Runtime) (i : ℕ) {A B : Finset ℤ} (hd : Disjoint A B) {mx mn : ℤ}
    (h : mn ≤ mx) :
    0 ≤ ((subsOf rt i A B).map (substitutionCost mx mn)).sum ∧
    (0 < min A.card B.card → 0 < ((subsOf rt i A B).map (substitutionCost mx mn)).sum) := by
  have hk : (0 : ℚ) < (mx - mn + 1 : ℤ) := by exact_mod_cast (by omega : 0 < mx - mn + 1)
  rw [sum_substitutionCost, sum_subsOf]
  have hp := (bestPairs_cheapest A B).1
  have hpos : ∀ p ∈ bestPairs A B, 0 < |p.1 - p.2| := by
    intro p hp'
    rw [abs_pos, sub_ne_zero]
    exact fun e => Finset.disjoint_left.1 hd (hp.left p hp') (e ▸ hp.right p hp')
  constructor
  · refine div_nonneg ?_ hk.le
    exact_mod_cast Finset.sum_nonneg fun p hp' => (hpos p hp').le
  · intro hc
    refine div_pos ?_ hk
    have hne : (bestPairs A B).Nonempty := by
      rw [← Finset.card_pos, hp.full]; exact hc
    exact_mod_cast Finset.sum_pos hpos hne

theorem onlyIn_disjoint (a b : BString) (p : ℕ) : Disjoint (onlyIn a b p) (onlyIn b a p) := by
  rw [Finset.disjoint_left]
  intro t h h'
  exact (mem_onlyIn.1 h).2 (mem_onlyIn.1 h').1

theorem missed_lt {a b : BString} (hl : a.length = b.length) {p : ℕ} (h : missedAt a b p ≠ ∅) :
    p < a.length := by
  by_contra hc
  apply h
  rw [missedAt, onlyIn, onlyIn, typesAt_beyond (by omega), typesAt_beyond (by omega)]
  simp

/-- C75: making an isolated position agree removes the edits of this position and changes no others:
the script loses one edit for every boundary type of the larger side. -/
theorem C75_edits (rt rt' : Runtime) (a b a' : BString) (p : ℕ) (nT : ℤ) (hl : a.length = b.length)
    (hp : p < a.length) (hc : Corrected a b p a') (hi : Isolated a b nT p) (hs : SharedTypes rt a b)
    (hs' : SharedTypes rt' a' b) (e : Edits) (he : boundaryEditDistance rt a b nT = .ok e) :
    ∃ e' adds subs, boundaryEditDistance rt' a' b nT = .ok e' ∧
      e.transpositions.Perm e'.transpositions ∧ e.additions.Perm (e'.additions ++ adds) ∧
      e.substitutions.Perm (e'.substitutions ++ subs) ∧
      adds.length = ((onlyIn a b p).card - (onlyIn b a p).card) +
        ((onlyIn b a p).card - (onlyIn a b p).card) ∧
      subs.length = min (onlyIn a b p).card (onlyIn b a p).card ∧
      (∀ s ∈ subs, s.typeA ∈ onlyIn a b p ∧ s.typeB ∈ onlyIn b a p) := by
  rw [bed_iff _ (le_of_eq hl)] at he
  obtain ⟨hb, rfl⟩ := he
  obtain ⟨h1, h2, h3⟩ := hc.edits hi hl hp hs hs'
  refine ⟨editsOf rt' a' b nT, _, _, ?_, h1, h2, h3, addsOf_length .., subsOf_length .., ?_⟩
  · rw [bed_iff _ (le_of_eq (hc.length.trans hl))]
    refine ⟨fun q hq => ?_, rfl⟩
    by_cases hqp : q = p
    · subst hqp
      simp [Balanced, leftover, onlyIn, hc.here]
    · have := hc.leftovers hi hl hs hs' hqp
      rw [Balanced, this.1, this.2]
      exact hb q (hc.length ▸ hq)
  · intro s hs
    simp only [subsOf, List.mem_map] at hs
    obtain ⟨q, hq, rfl⟩ := hs
    have hp := (bestPairs_cheapest (onlyIn a b p) (onlyIn b a p)).1
    rw [rt.orderP_mem] at hq
    exact ⟨hp.left q hq, hp.right q hq⟩

theorem corrected_cost {rt : Runtime} {a b a' : BString} {p : ℕ} {nT : ℤ} (hl : a.length = b.length)
    (hd : missedAt a b p ≠ ∅) (hc : Corrected a b p a') (hi : Isolated a b nT p)
    (hs : SharedTypes rt a b) {mx mn : ℤ} (hm : mn ≤ mx) :
    ∃ c : ℚ, 0 ≤ c ∧ (0 < min (onlyIn a b p).card (onlyIn b a p).card → 0 < c) ∧
    scriptCost nT mx mn (editsOf rt a b nT) = scriptCost nT mx mn (editsOf rt a' b nT) + c +
      (((onlyIn a b p).card - (onlyIn b a p).card) +
        ((onlyIn b a p).card - (onlyIn a b p).card) : ℕ) ∧
    editCount (editsOf rt a b nT) = editCount (editsOf rt a' b nT) +
      (((onlyIn a b p).card - (onlyIn b a p).card) +
        ((onlyIn b a p).card - (onlyIn a b p).card)) +
      min (onlyIn a b p).card (onlyIn b a p).card := by
  obtain ⟨h1, h2, h3⟩ := hc.edits hi hl (missed_lt hl hd) hs (hc.shared hs)
  obtain ⟨c1, c2⟩ := subs_cost rt p (onlyIn_disjoint a b p) hm
  refine ⟨_, c1, c2, ?_, ?_⟩
  · rw [scriptCost, scriptCost, (h1.map _).sum_eq, h2.length_eq, (h3.map _).sum_eq,
      List.map_append, List.sum_append, List.length_append, addsOf_length]
    push_cast
    ring
  · rw [editCount, editCount, h1.length_eq, h2.length_eq, h3.length_eq, List.length_append,
      List.length_append, addsOf_length, subsOf_length]
    omega

/-- C75: making an isolated difference agree never lowers boundary similarity, and raises it unless
it stays 0. -/
theorem C75_boundary (rt : Runtime) (kw : SimKw) (hw : kw.weight = .default)
    (hr : kw.returnParts = false) (ho : kw.oneMinus = false) (a b a' : Seg) (sa sb sa' : BString)
    (ha : Denotes kw.boundaryFormat a sa) (hb : Denotes kw.boundaryFormat b sb)
    (ha' : Denotes kw.boundaryFormat a' sa') (p : ℕ) (hd : missedAt sa sb p ≠ ∅)
    (hc : Corrected sa sb p sa') (hi : Isolated sa sb kw.nT p) (hs : SharedTypes rt sa sb)
    (ht : SameTypes sa sb sa' sb) (x x' : ℚ) (h : Returns (boundarySimilarity rt kw a b) x)
    (h' : Returns (boundarySimilarity rt kw a' b) x') : x ≤ x' ∧ (x' ≠ 0 → x < x') := by
  have r := C17_range rt kw hw a b x h
  have r' := C17_range rt kw hw a' b x' h'
  obtain ⟨hl, hu, -, hp, hx⟩ := boundary_value hw hr ho ha hb h
  obtain ⟨-, -, -, hp', hx'⟩ := boundary_value hw hr ho ha' hb h'
  obtain ⟨mx, mn, hm⟩ := extremes_exist hu
  obtain ⟨c, c0, c1, hcost, hcount⟩ := corrected_cost hl hd hc hi hs (hm.le_max _ hm.usedMin)
    (rt := rt)
  have hx := hx _ _ hm
  have hx' := hx' _ _ (hm.same ht)
  have hmc := hc.matchCount (missed_lt hl hd)
  have hcard : 0 < (onlyIn sa sb p).card + (onlyIn sb sa p).card := by
    rw [← Finset.card_union_of_disjoint (onlyIn_disjoint sa sb p), Finset.card_pos]
    exact Finset.nonempty_iff_ne_empty.2 hd
  rw [scriptCredit_eq, hcost, hcount] at hx
  rw [scriptCredit_eq, hmc] at hx'
  rw [hcount] at hp
  rw [hmc] at hp'
  generalize (onlyIn sa sb p).card = X at *
  generalize (onlyIn sb sa p).card = Y at *
  generalize editCount (editsOf rt sa' sb kw.nT) = E at *
  generalize scriptCost kw.nT mx mn (editsOf rt sa' sb kw.nT) = C at *
  generalize matchCount sa sb = m at *
  rcases le_or_gt X Y with hXY | hXY
  · obtain ⟨d, rfl⟩ := Nat.exists_eq_add_of_le hXY
    simp only [Nat.sub_eq_zero_of_le (Nat.le_add_right X d), Nat.add_sub_cancel_left, zero_add,
      min_eq_left (Nat.le_add_right X d)] at *
    have e : E + d + X + m = E + (m + (X + d)) := by omega
    have hD : (0 : ℚ) < ((E + (m + (X + d)) : ℕ) : ℚ) := by exact_mod_cast hp'
    have hlt : x < x' := by
      rw [hx, hx']
      have e' : ((E + d + X : ℕ) : ℚ) + m = ((E + (m + (X + d)) : ℕ) : ℚ) := by push_cast; ring
      have e'' : (E : ℚ) + ((m + (X + d) : ℕ) : ℚ) = ((E + (m + (X + d)) : ℕ) : ℚ) := by push_cast; ring
      rw [e', e'', e]
      refine div_lt_div_of_pos_right ?_ hD
      rcases Nat.eq_zero_or_pos d with rfl | hd0
      · have := c1 (by omega)
        push_cast; linarith
      · have : (0 : ℚ) < d := by exact_mod_cast hd0
        linarith
    exact ⟨hlt.le, fun _ => hlt⟩
  · obtain ⟨d, rfl⟩ := Nat.exists_eq_add_of_le hXY.le
    simp only [Nat.sub_eq_zero_of_le (Nat.le_add_right Y d), Nat.add_sub_cancel_left, add_zero,
      min_eq_right (Nat.le_add_right Y d)] at *
    have hd0 : (0 : ℚ) < d := by exact_mod_cast (by omega : 0 < d)
    have hD' : (0 : ℚ) < (E : ℚ) + m + Y := by exact_mod_cast (by omega : 0 < E + m + Y)
    have e1 : x' = ((E + m + Y : ℚ) - C) / (E + m + Y) := by rw [hx']; push_cast; congr 1 <;> ring
    have e2 : x = ((E + m + Y : ℚ) - C - c) / (E + m + Y + d) := by
      rw [hx]; push_cast; congr 1 <;> ring
    have n' : 0 ≤ (E + m + Y : ℚ) - C := by
      have := r'.1
      rw [e1, le_div_iff₀ hD'] at this
      linarith
    have step : x ≤ ((E + m + Y : ℚ) - C) / (E + m + Y + d) := by
      rw [e2]
      exact div_le_div_of_nonneg_right (by linarith) (by linarith)
    refine ⟨step.trans (by rw [e1]; exact div_le_div_of_nonneg_left n' hD' (by linarith)), fun h0 => ?_⟩
    have np : 0 < (E + m + Y : ℚ) - C := lt_of_le_of_ne n' fun e => h0 (by rw [e1, ← e, zero_div])
    exact step.trans_lt (by rw [e1]; exact div_lt_div_of_pos_left np hD' (by linarith))

/-- C75: segmentation similarity rises. -/
theorem C75_segmentation (rt : Runtime) (kw : SimKw) (hw : kw.weight = .default)
    (hr : kw.returnParts = false) (ho : kw.oneMinus = false) (a b a' : Seg) (sa sb sa' : BString)
    (ha : Denotes kw.boundaryFormat a sa) (hb : Denotes kw.boundaryFormat b sb)
    (ha' : Denotes kw.boundaryFormat a' sa') (p : ℕ) (hd : missedAt sa sb p ≠ ∅)
    (hc : Corrected sa sb p sa') (hi : Isolated sa sb kw.nT p) (hs : SharedTypes rt sa sb)
    (ht : SameTypes sa sb sa' sb) (x x' : ℚ) (h : Returns (segmentationSimilarity rt kw a b) x)
    (h' : Returns (segmentationSimilarity rt kw a' b) x') : x < x' := by
  obtain ⟨hl, hu, -, hx⟩ := segmentation_value hw hr ho ha hb h
  obtain ⟨-, -, -, hx'⟩ := segmentation_value hw hr ho ha' hb h'
  obtain ⟨mx, mn, hm⟩ := extremes_exist hu
  obtain ⟨c, c0, c1, hcost, -⟩ := corrected_cost hl hd hc hi hs (hm.le_max _ hm.usedMin)
    (rt := rt)
  have hx := hx _ _ hm
  have hx' := hx' _ _ (hm.same ht)
  have hcard : 0 < (onlyIn sa sb p).card + (onlyIn sb sa p).card := by
    rw [← Finset.card_union_of_disjoint (onlyIn_disjoint sa sb p), Finset.card_pos]
    exact Finset.nonempty_iff_ne_empty.2 hd
  have k1 : identifyTypes sa' sb = identifyTypes sa sb := by
    ext t; rw [mem_identifyTypes, mem_identifyTypes, ht t]
  have hk : 0 < (identifyTypes sa sb).card :=
    Finset.card_pos.2 (hu.imp fun _ => mem_identifyTypes.2)
  have hn := length_of_types hl hu
  rw [hx, hx', k1, hc.length]
  have hD : (0 : ℚ) < sa.length * (identifyTypes sa sb).card * (identifyTypes sa sb).card := by
    have : (0 : ℚ) < (identifyTypes sa sb).card := by exact_mod_cast hk
    have : (0 : ℚ) < sa.length := by exact_mod_cast hn
    positivity
  refine sub_lt_sub_left (div_lt_div_of_pos_right ?_ hD) 1
  rw [hcost]
  by_cases h0 : 0 < min (onlyIn sa sb p).card (onlyIn sb sa p).card
  · have := c1 h0
    have : (0 : ℚ) ≤ (((onlyIn sa sb p).card - (onlyIn sb sa p).card +
      ((onlyIn sb sa p).card - (onlyIn sa sb p).card) : ℕ) : ℚ) := by positivity
    linarith
  · have : (0 : ℚ) < (((onlyIn sa sb p).card - (onlyIn sb sa p).card +
      ((onlyIn sb sa p).card - (onlyIn sa sb p).card) : ℕ) : ℚ) := by
      exact_mod_cast (by omega : 0 < (onlyIn sa sb p).card - (onlyIn sb sa p).card +
        ((onlyIn sb sa p).card - (onlyIn sa sb p).card))
    linarith

/-- C75: masses, positions and strings: an addition or removal of a single boundary that makes an
isolated position agree. -/
theorem C75_single (rt : Runtime) (kw : SimKw) (hw : kw.weight = .default)
    (hr : kw.returnParts = false) (ho : kw.oneMinus = false) (hf : kw.boundaryFormat ≠ .sets)
    (a b a' : Seg) (sa sb sa' : BString) (ha : Denotes kw.boundaryFormat a sa)
    (hb : Denotes kw.boundaryFormat b sb) (ha' : Denotes kw.boundaryFormat a' sa') (p : ℕ)
    (hd : typesAt sa p ≠ typesAt sb p) (hc : Corrected sa sb p sa')
    (hi : ∀ q : ℕ, q ≠ p → |(q : ℤ) - p| < kw.nT → typesAt sa q = typesAt sb q) (x x' : ℚ) :
    (Returns (boundarySimilarity rt kw a b) x → Returns (boundarySimilarity rt kw a' b) x' →
      x ≤ x' ∧ (x' ≠ 0 → x < x')) ∧
    (Returns (segmentationSimilarity rt kw a b) x →
      Returns (segmentationSimilarity rt kw a' b) x' → x < x') := by
  have hi' : Isolated sa sb kw.nT p := fun q hq hn => by
    simp [missedAt, onlyIn, hi q hq hn]
  have hd' : missedAt sa sb p ≠ ∅ := by
    intro h
    rw [missedAt, Finset.union_eq_empty, onlyIn, onlyIn, Finset.sdiff_eq_empty_iff_subset,
      Finset.sdiff_eq_empty_iff_subset] at h
    exact hd (Finset.Subset.antisymm h.1 h.2)
  have hs := denotes_shared rt ha hb hf
  exact ⟨fun h h' => C75_boundary rt kw hw hr ho a b a' sa sb sa' ha hb ha' p hd' hc hi' hs
      (sameTypes_of hf ha hb ha' hb (boundary_value hw hr ho ha hb h).2.1
        (boundary_value hw hr ho ha' hb h').2.1) x x' h h',
    fun h h' => C75_segmentation rt kw hw hr ho a b a' sa sb sa' ha hb ha' p hd' hc hi' hs
      (sameTypes_of hf ha hb ha' hb (segmentation_value hw hr ho ha hb h).2.1
        (segmentation_value hw hr ho ha' hb h').2.1) x x' h h'⟩

/-- A missing boundary added, then a spurious one removed; next to them a near miss and a match. -/
example :
    Returns (boundarySimilarity .ascending {} (massSeg [3, 4, 4, 2]) (massSeg [2, 3, 6, 2])) (3 / 8) ∧
    Returns (boundarySimilarity .ascending {} (massSeg [3, 2, 2, 4, 2]) (massSeg [2, 3, 6, 2]))
      (5 / 8) ∧
    Returns (boundarySimilarity .ascending {} (massSeg [3, 2, 6, 2]) (massSeg [2, 3, 6, 2]))
      (5 / 6) :=
  ⟨⟨.dec (3 / 8), by decide +kernel, by norm_num [PyNum.val]⟩,
    ⟨.dec (5 / 8), by decide +kernel, by norm_num [PyNum.val]⟩,
    ⟨.dec (5 / 6), by decide +kernel, by norm_num [PyNum.val]⟩⟩

/-- The hypotheses of `C75_single` for the first step. -/
example : Corrected [∅, ∅, {1}, ∅, ∅, ∅, {1}, ∅, ∅, ∅, {1}, ∅]
    [∅, {1}, ∅, ∅, {1}, ∅, ∅, ∅, ∅, ∅, {1}, ∅] 4 [∅, ∅, {1}, ∅, {1}, ∅, {1}, ∅, ∅, ∅, {1}, ∅] := by
  refine ⟨rfl, by decide, fun q hq => ?_⟩
  rcases lt_or_ge q 12 with h | h
  · exact (by decide : ∀ q < 12, q ≠ 4 → typesAt _ q = typesAt _ q) q h hq
  · rw [typesAt_beyond (by simpa using h), typesAt_beyond (by simpa using h)]

/-- C75: a similarity of 0 may stay 0 although a spurious boundary is removed. -/
example :
    Returns (boundarySimilarity .ascending {} (massSeg [1, 3, 6]) (massSeg [8, 2])) 0 ∧
    Returns (boundarySimilarity .ascending {} (massSeg [4, 6]) (massSeg [8, 2])) 0 :=
  ⟨⟨.dec 0, by decide +kernel, rfl⟩, ⟨.dec 0, by decide +kernel, rfl⟩⟩

/-- C75: not for every correction: a coder who misplaced a boundary by one unit is worse off after
adding the right one. -/
theorem C75_near_miss_refuted :
    Returns (boundarySimilarity .ascending {} (massSeg [2, 2, 3, 1]) (massSeg [2, 2, 2, 2]))
      (5 / 6) ∧
    Returns (boundarySimilarity .ascending {} (massSeg [2, 2, 2, 1, 1]) (massSeg [2, 2, 2, 2]))
      (3 / 4) :=
  ⟨⟨.dec (5 / 6), by decide +kernel, by norm_num [PyNum.val]⟩,
    ⟨.dec (3 / 4), by decide +kernel, by norm_num [PyNum.val]⟩⟩

/-- C75: and not if the correction removes the only boundary of the largest type: then the range of
types shrinks and every substitution costs more. -/
theorem C75_types_refuted :
    Returns (boundarySimilarity .ascending kwSets
      (.sets [{1}, ∅, {1}, ∅, {1}, ∅, {1}, ∅, {9}]) (.sets [{2}, ∅, {2}, ∅, {2}, ∅, {2}, ∅, ∅]))
      (32 / 45) ∧
    Returns (boundarySimilarity .ascending kwSets
      (.sets [{1}, ∅, {1}, ∅, {1}, ∅, {1}, ∅, ∅]) (.sets [{2}, ∅, {2}, ∅, {2}, ∅, {2}, ∅, ∅]))
      (1 / 2) :=
  ⟨⟨.dec (32 / 45), by decide +kernel, by norm_num [PyNum.val]⟩,
    ⟨.dec (1 / 2), by decide +kernel, by norm_num [PyNum.val]⟩⟩

end SegEval.Props
