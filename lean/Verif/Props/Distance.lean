import Verif.Props.Wider

/-!
# C105: one minus a similarity as a distance
-/

namespace SegEval

open SegEval.Spec

theorem symmDiff_card_le {α : Type*} [DecidableEq α] (A B C : Finset α) :
    (symmDiff A C).card ≤ (symmDiff A B).card + (symmDiff B C).card :=
  (Finset.card_le_card (symmDiff_triangle A B C)).trans (Finset.card_union_le _ _)

theorem card_le_symmDiff {α : Type*} [DecidableEq α] (A B : Finset α) :
    B.card ≤ A.card + (symmDiff A B).card := by
  refine le_trans (Finset.card_le_card (fun x hx => ?_)) (Finset.card_union_le A (symmDiff A B))
  by_cases h : x ∈ A
  · simp [h]
  · simp [Finset.mem_symmDiff, h, hx]

theorem two_union_card {α : Type*} [DecidableEq α] (A B : Finset α) :
    2 * (A ∪ B).card = A.card + B.card + (symmDiff A B).card := by
  have h1 := Finset.card_union_add_card_inter A B
  have h2 : (symmDiff A B).card + (A ∩ B).card = (A ∪ B).card := by
    rw [← Finset.card_union_of_disjoint]
    · congr 1
      ext z
      simp only [Finset.mem_union, Finset.mem_symmDiff, Finset.mem_inter]
      tauto
    · rw [Finset.disjoint_left]
      intro z
      simp only [Finset.mem_symmDiff, Finset.mem_inter]
      tauto
  omega

theorem one_sub_jaccard {α : Type*} [DecidableEq α] (A B : Finset α) (h : 0 < (A ∪ B).card) :
    1 - ((A ∩ B).card : ℚ) / (A ∪ B).card =
      2 * (symmDiff A B).card / (A.card + B.card + (symmDiff A B).card) := by
  have h1 := Finset.card_union_add_card_inter A B
  have h2 := two_union_card A B
  have h3 : (2 : ℚ) * (A ∪ B).card = A.card + B.card + (symmDiff A B).card := by exact_mod_cast h2
  have h4 : ((A ∪ B).card : ℚ) + (A ∩ B).card = A.card + B.card := by exact_mod_cast h1
  have h0 : (0 : ℚ) < (A ∪ B).card := by exact_mod_cast h
  rw [← h3, mul_div_mul_left _ _ two_ne_zero, eq_div_iff h0.ne', sub_mul, div_mul_cancel₀ _ h0.ne']
  linarith

/-- The triangle inequality of the Jaccard distance. -/
theorem jaccard_triangle {α : Type*} [DecidableEq α] (A B C : Finset α) (h1 : 0 < (A ∪ B).card)
    (h2 : 0 < (B ∪ C).card) (h3 : 0 < (A ∪ C).card) :
    1 - ((A ∩ C).card : ℚ) / (A ∪ C).card ≤
      (1 - ((A ∩ B).card : ℚ) / (A ∪ B).card) + (1 - ((B ∩ C).card : ℚ) / (B ∪ C).card) := by
  rw [one_sub_jaccard A C h3, one_sub_jaccard A B h1, one_sub_jaccard B C h2]
  have t1 : ((symmDiff A C).card : ℚ) ≤ (symmDiff A B).card + (symmDiff B C).card := by
    exact_mod_cast symmDiff_card_le A B C
  have t2 : (B.card : ℚ) ≤ C.card + (symmDiff B C).card := by
    have := card_le_symmDiff C B
    rw [symmDiff_comm] at this
    exact_mod_cast this
  have t3 : (B.card : ℚ) ≤ A.card + (symmDiff A B).card := by exact_mod_cast card_le_symmDiff A B
  have u1 : (0 : ℚ) < A.card + B.card + (symmDiff A B).card := by
    exact_mod_cast (by have := two_union_card A B; omega : 0 < A.card + B.card + (symmDiff A B).card)
  have u2 : (0 : ℚ) < B.card + C.card + (symmDiff B C).card := by
    exact_mod_cast (by have := two_union_card B C; omega : 0 < B.card + C.card + (symmDiff B C).card)
  have u3 : (0 : ℚ) < A.card + C.card + (symmDiff A C).card := by
    exact_mod_cast (by have := two_union_card A C; omega : 0 < A.card + C.card + (symmDiff A C).card)
  generalize ((symmDiff A C).card : ℚ) = p at *
  have q0 : (0 : ℚ) ≤ (symmDiff A B).card := by positivity
  have r0 : (0 : ℚ) ≤ (symmDiff B C).card := by positivity
  have a0 : (0 : ℚ) ≤ A.card := by positivity
  have c0 : (0 : ℚ) ≤ C.card := by positivity
  generalize ((symmDiff A B).card : ℚ) = q at *
  generalize ((symmDiff B C).card : ℚ) = r at *
  generalize (A.card : ℚ) = a at *
  generalize (B.card : ℚ) = b at *
  generalize (C.card : ℚ) = c at *
  have v : 0 < a + c + (q + r) := by linarith
  have s1 : 2 * p / (a + c + p) ≤ 2 * (q + r) / (a + c + (q + r)) := by
    rw [div_le_div_iff₀ u3 v]
    nlinarith [mul_nonneg (sub_nonneg.2 t1) (add_nonneg a0 c0)]
  have s2 : 2 * q / (a + c + (q + r)) ≤ 2 * q / (a + b + q) :=
    div_le_div_of_nonneg_left (by linarith) u1 (by linarith)
  have s3 : 2 * r / (a + c + (q + r)) ≤ 2 * r / (b + c + r) :=
    div_le_div_of_nonneg_left (by linarith) u2 (by linarith)
  have s4 : 2 * (q + r) / (a + c + (q + r)) =
      2 * q / (a + c + (q + r)) + 2 * r / (a + c + (q + r)) := by rw [← add_div]; ring
  linarith

end SegEval

namespace SegEval.Props

open SegEval Spec

theorem jaccard_value {rt : Runtime} {kw : SimKw} (hw : kw.weight = .default)
    (hr : kw.returnParts = false) (ho : kw.oneMinus = false) {a b : Seg} {sa sb : BString}
    (ha : Denotes kw.boundaryFormat a sa) (hb : Denotes kw.boundaryFormat b sb)
    (hs : SharedTypes rt sa sb) (h1 : OneSided sa sb) (hn : kw.nT ≤ 1) {x : ℚ}
    (hx : Returns (boundarySimilarity rt kw a b) x) :
    x = (boundaries sa ∩ boundaries sb).card / (boundaries sa ∪ boundaries sb).card ∧
      0 < (boundaries sa ∪ boundaries sb).card := by
  refine ⟨C104_jaccard rt kw hw hr ho a b sa sb ha hb hs h1 hn x hx, ?_⟩
  obtain ⟨-, ⟨t, ht⟩, -⟩ := boundary_value hw hr ho ha hb hx
  rw [Finset.card_pos]
  obtain ⟨p, hp⟩ := ht
  refine ⟨(p, t), ?_⟩
  rw [Finset.mem_union, mem_boundaries, mem_boundaries]
  exact hp

/-- C105 (partial): one less boundary similarity satisfies the triangle inequality for `n_t` at most 1
if of any two of the segmentations, at no position each has a type the other lacks.

Missing: larger `n_t`, among them the default, for which the claim is false
(`C105_boundary_refuted`). -/
theorem C105_boundary_partial (rt : Runtime) (kw : SimKw) (hw : kw.weight = .default)
    (hr : kw.returnParts = false) (ho : kw.oneMinus = false) (hn : kw.nT ≤ 1) (a b c : Seg)
    (sa sb sc : BString) (ha : Denotes kw.boundaryFormat a sa) (hb : Denotes kw.boundaryFormat b sb)
    (hc : Denotes kw.boundaryFormat c sc) (sab : SharedTypes rt sa sb) (sbc : SharedTypes rt sb sc)
    (sac : SharedTypes rt sa sc) (oab : OneSided sa sb) (obc : OneSided sb sc)
    (oac : OneSided sa sc) (x y z : ℚ) (hx : Returns (boundarySimilarity rt kw a b) x)
    (hy : Returns (boundarySimilarity rt kw b c) y) (hz : Returns (boundarySimilarity rt kw a c) z) :
    1 - z ≤ (1 - x) + (1 - y) := by
  obtain ⟨rfl, p1⟩ := jaccard_value hw hr ho ha hb sab oab hn hx
  obtain ⟨rfl, p2⟩ := jaccard_value hw hr ho hb hc sbc obc hn hy
  obtain ⟨rfl, p3⟩ := jaccard_value hw hr ho ha hc sac oac hn hz
  exact jaccard_triangle _ _ _ p1 p2 p3

/-- C105 (partial): one less segmentation similarity satisfies the triangle inequality for `n_t` at
most 1 and one boundary type.

Missing: larger `n_t`, among them the default, and several types, for which the claim is false
(`C105_segmentation_refuted`, `C105_segmentation_types`). -/
theorem C105_segmentation_partial (rt : Runtime) (kw : SimKw) (hw : kw.weight = .default)
    (hr : kw.returnParts = false) (ho : kw.oneMinus = false) (hn : kw.nT ≤ 1) (a b c : Seg)
    (sa sb sc : BString) (ha : Denotes kw.boundaryFormat a sa) (hb : Denotes kw.boundaryFormat b sb)
    (hc : Denotes kw.boundaryFormat c sc) (sab : SharedTypes rt sa sb) (sbc : SharedTypes rt sb sc)
    (sac : SharedTypes rt sa sc) (t : ℤ) (ta : ∀ p, typesAt sa p ⊆ {t})
    (tb : ∀ p, typesAt sb p ⊆ {t}) (tc : ∀ p, typesAt sc p ⊆ {t}) (x y z : ℚ)
    (hx : Returns (segmentationSimilarity rt kw a b) x)
    (hy : Returns (segmentationSimilarity rt kw b c) y)
    (hz : Returns (segmentationSimilarity rt kw a c) z) : 1 - z ≤ (1 - x) + (1 - y) := by
  have key : ∀ {s₁ s₂ : Seg} {b₁ b₂ : BString} {v : ℚ}, Denotes kw.boundaryFormat s₁ b₁ →
      Denotes kw.boundaryFormat s₂ b₂ → SharedTypes rt b₁ b₂ → (∀ p, typesAt b₁ p ⊆ {t}) →
      (∀ p, typesAt b₂ p ⊆ {t}) → Returns (segmentationSimilarity rt kw s₁ s₂) v →
      1 - v = (symmDiff (boundaries b₁) (boundaries b₂)).card / b₁.length ∧
        b₁.length = b₂.length := by
    intro s₁ s₂ b₁ b₂ v d₁ d₂ hs t₁ t₂ hv
    obtain ⟨hl, ⟨u, p, hu⟩, -⟩ := segmentation_value hw hr ho d₁ d₂ hv
    have hty : ∀ u', u' ∈ ({t} : Finset ℤ) ↔ UsesType b₁ b₂ u' := by
      intro u'
      constructor
      · intro h
        have h' := Finset.mem_singleton.1 h
        rcases hu with hu | hu
        · have := Finset.mem_singleton.1 (t₁ p hu); subst this; subst h'; exact ⟨p, .inl hu⟩
        · have := Finset.mem_singleton.1 (t₂ p hu); subst this; subst h'; exact ⟨p, .inr hu⟩
      · rintro ⟨q, hq | hq⟩
        · exact t₁ q hq
        · exact t₂ q hq
    rw [C104_agreeing rt kw hw hr ho s₁ s₂ b₁ b₂ d₁ d₂ hs (oneSided_of_oneType t₁ t₂) hn {t} hty v hv]
    exact ⟨by simp, hl⟩
  obtain ⟨e1, l1⟩ := key ha hb sab ta tb hx
  obtain ⟨e2, l2⟩ := key hb hc sbc tb tc hy
  obtain ⟨e3, -⟩ := key ha hc sac ta tc hz
  rw [e1, e2, e3, ← l1, ← add_div]
  refine div_le_div_of_nonneg_right ?_ (by positivity)
  exact_mod_cast symmDiff_card_le _ _ _

/-- Distances 1/4, 1/4 and 1/2 for `n_t` 1: the inequality can be an equality. -/
example : ∃ x y z, Returns (boundarySimilarity .ascending { kwSets with nT := 1 }
      (.sets [{1}, {1}, ∅, {1}]) (.sets [{1}, {1}, {1}, {1}])) x ∧
    Returns (boundarySimilarity .ascending { kwSets with nT := 1 }
      (.sets [{1}, {1}, {1}, {1}]) (.sets [{1}, {1}, {1}, ∅])) y ∧
    Returns (boundarySimilarity .ascending { kwSets with nT := 1 }
      (.sets [{1}, {1}, ∅, {1}]) (.sets [{1}, {1}, {1}, ∅])) z ∧ x = 3 / 4 ∧ y = 3 / 4 ∧ z = 1 / 2 :=
  ⟨3 / 4, 3 / 4, 1 / 2, ⟨.dec (3 / 4), by decide +kernel, by norm_num [PyNum.val]⟩,
    ⟨.dec (3 / 4), by decide +kernel, by norm_num [PyNum.val]⟩,
    ⟨.dec (1 / 2), by decide +kernel, by norm_num [PyNum.val]⟩, rfl, rfl, rfl⟩

/-- C105 is false for the default `n_t`: two near misses in a row are a full miss, which costs more. -/
theorem C105_boundary_refuted :
    Returns (boundarySimilarity .ascending kwSets (.sets [{1}, ∅, {1}, ∅, ∅])
      (.sets [{1}, ∅, ∅, {1}, ∅])) (3 / 4) ∧
    Returns (boundarySimilarity .ascending kwSets (.sets [{1}, ∅, ∅, {1}, ∅])
      (.sets [{1}, ∅, ∅, ∅, {1}])) (3 / 4) ∧
    Returns (boundarySimilarity .ascending kwSets (.sets [{1}, ∅, {1}, ∅, ∅])
      (.sets [{1}, ∅, ∅, ∅, {1}])) (1 / 3) ∧
    ¬ ((1 : ℚ) - 1 / 3 ≤ (1 - 3 / 4) + (1 - 3 / 4)) := by
  refine ⟨⟨.dec (3 / 4), by decide +kernel, by norm_num [PyNum.val]⟩,
    ⟨.dec (3 / 4), by decide +kernel, by norm_num [PyNum.val]⟩,
    ⟨.dec (1 / 3), by decide +kernel, by norm_num [PyNum.val]⟩, by norm_num⟩

/-- C105 is false for segmentation similarity with the default `n_t`. -/
theorem C105_segmentation_refuted :
    Returns (segmentationSimilarity .ascending kwSets (.sets [{1}, ∅, ∅]) (.sets [∅, {1}, ∅]))
      (5 / 6) ∧
    Returns (segmentationSimilarity .ascending kwSets (.sets [∅, {1}, ∅]) (.sets [∅, ∅, {1}]))
      (5 / 6) ∧
    Returns (segmentationSimilarity .ascending kwSets (.sets [{1}, ∅, ∅]) (.sets [∅, ∅, {1}]))
      (1 / 3) ∧
    ¬ ((1 : ℚ) - 1 / 3 ≤ (1 - 5 / 6) + (1 - 5 / 6)) := by
  refine ⟨⟨.dec (5 / 6), by decide +kernel, by norm_num [PyNum.val]⟩,
    ⟨.dec (5 / 6), by decide +kernel, by norm_num [PyNum.val]⟩,
    ⟨.dec (1 / 3), by decide +kernel, by norm_num [PyNum.val]⟩, by norm_num⟩

/-- C105 is false for segmentation similarity with two types, whatever the window: the number of types
in the denominator depends on the pair. -/
theorem C105_segmentation_types :
    Returns (segmentationSimilarity .ascending { kwSets with nT := 1 } (.sets [{1}, ∅, ∅])
      (.sets [{1}, {2}, ∅])) (11 / 12) ∧
    Returns (segmentationSimilarity .ascending { kwSets with nT := 1 } (.sets [{1}, {2}, ∅])
      (.sets [{1}, ∅, {1}])) (5 / 6) ∧
    Returns (segmentationSimilarity .ascending { kwSets with nT := 1 } (.sets [{1}, ∅, ∅])
      (.sets [{1}, ∅, {1}])) (2 / 3) ∧
    ¬ ((1 : ℚ) - 2 / 3 ≤ (1 - 11 / 12) + (1 - 5 / 6)) := by
  refine ⟨⟨.dec (11 / 12), by decide +kernel, by norm_num [PyNum.val]⟩,
    ⟨.dec (5 / 6), by decide +kernel, by norm_num [PyNum.val]⟩,
    ⟨.dec (2 / 3), by decide +kernel, by norm_num [PyNum.val]⟩, by norm_num⟩

end SegEval.Props
