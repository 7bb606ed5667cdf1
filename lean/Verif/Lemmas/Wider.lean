import Verif.Spec.Wider
import Verif.Lemmas.Formula
import Verif.Props.Edit

/-!
# Lemmas about wider windows
-/

namespace SegEval

open SegEval.Spec

theorem oneSided_of_oneType {a b : BString} {t : ℤ} (ha : ∀ p, typesAt a p ⊆ {t})
    (hb : ∀ p, typesAt b p ⊆ {t}) : OneSided a b := by
  intro p
  by_cases h : t ∈ typesAt b p
  · left
    rw [onlyIn, Finset.sdiff_eq_empty_iff_subset]
    intro x hx
    rw [Finset.mem_singleton.1 (ha p hx)]; exact h
  · right
    rw [onlyIn, Finset.sdiff_eq_empty_iff_subset]
    intro x hx
    rw [Finset.mem_singleton.1 (hb p hx)] at hx; exact absurd hx h

/-- Without positions where both strings have something of their own there are no substitutions. -/
theorem no_substitutions {rt : Runtime} {a b : BString} (hl : a.length = b.length) (ho : OneSided a b)
    {nT : ℤ} {e : Edits} (he : boundaryEditDistance rt a b nT = .ok e) : e.substitutions = [] := by
  obtain ⟨S, hS, hsub, -⟩ := Props.C08_substitutions_cheapest rt a b hl nT e he
  have h0 : ∀ p, S p = ∅ := by
    intro p
    have := (hS p).1.full
    rw [← Finset.card_eq_zero, this]
    rcases ho p with h | h
    · simp [leftover, h]
    · simp [leftover, h]
  simp only [h0] at hsub
  simpa using hsub

/-- What the transpositions of a script are credited. -/
def transpositionCredit (nT : ℤ) (l : List Transposition) : ℚ :=
  (l.map (fun t => 1 - transpositionCost nT t)).sum

theorem genuine_credit {a b : BString} {nT : ℤ} {t : Transposition} (h : Genuine a b nT t) :
    0 < nT ∧ 0 ≤ 1 - transpositionCost nT t := by
  have h1 := h.ordered
  have h2 := h.span
  have hn : 0 < nT := by omega
  refine ⟨hn, ?_⟩
  have hn' : (0 : ℚ) < nT := by exact_mod_cast hn
  rw [transpositionCost, sub_nonneg, div_le_one hn']
  have : ((t.stop : ℤ) : ℚ) - ((t.start : ℤ) : ℚ) < (nT : ℚ) := by exact_mod_cast h2
  push_cast at this
  exact this.le

theorem credit_wider {a b : BString} {n m : ℤ} (hnm : n ≤ m) {l r : List Transposition}
    (hl : ∀ t ∈ l, Genuine a b n t) (hr : ∀ t ∈ r, Genuine a b m t) :
    transpositionCredit n l ≤ transpositionCredit m (l ++ r) := by
  rw [transpositionCredit, transpositionCredit, List.map_append, List.sum_append]
  have h1 : (l.map (fun t => 1 - transpositionCost n t)).sum ≤
      (l.map (fun t => 1 - transpositionCost m t)).sum := by
    refine List.sum_le_sum fun t ht => ?_
    have hg := hl t ht
    have hn := (genuine_credit hg).1
    have h0 : (t.start : ℚ) ≤ t.stop := by exact_mod_cast hg.ordered.le
    have hn' : (0 : ℚ) < n := by exact_mod_cast hn
    have hm' : (n : ℚ) ≤ m := by exact_mod_cast hnm
    rw [transpositionCost, transpositionCost]
    have := div_le_div_of_nonneg_left (sub_nonneg.2 h0) hn' hm'
    linarith
  have h2 : 0 ≤ (r.map (fun t => 1 - transpositionCost m t)).sum := by
    refine List.sum_nonneg fun x hx => ?_
    obtain ⟨t, ht, rfl⟩ := List.mem_map.1 hx
    exact (genuine_credit (hr t ht)).2
  linarith

/-- Cost and credit of a script without substitutions. -/
theorem credit_plain (nT mx mn : ℤ) (m : ℕ) {e : Edits} (h : e.substitutions = []) :
    scriptCredit nT mx mn m e = m + transpositionCredit nT e.transpositions := by
  simp [scriptCredit, h, transpositionCredit]

theorem cost_plain (nT mx mn : ℤ) {e : Edits} (h : e.substitutions = []) :
    scriptCost nT mx mn e = editCount e - transpositionCredit nT e.transpositions := by
  have := scriptCredit_eq nT mx mn 0 e
  rw [credit_plain nT mx mn 0 h] at this
  push_cast at this
  linarith

/-- A wider window: no less credit, no more edits. -/
theorem wider {rt : Runtime} {a b : BString} (hl : a.length = b.length) (hs : SharedTypes rt a b)
    {n m : ℤ} (hnm : n ≤ m) {e e' : Edits} (he : boundaryEditDistance rt a b n = .ok e)
    (he' : boundaryEditDistance rt a b m = .ok e') :
    transpositionCredit n e.transpositions ≤ transpositionCredit m e'.transpositions ∧
      editCount e' ≤ editCount e := by
  constructor
  · obtain ⟨r, hr⟩ := Props.C13_transpositions_prefix rt a b hl n m hnm e e' he he'
    rw [← hr]
    refine credit_wider hnm (Props.C07_transpositions_genuine rt a b hl n e he) ?_
    intro t ht
    exact Props.C07_transpositions_genuine rt a b hl m e' he' t (by rw [← hr]; simp [ht])
  · exact Props.C13_edits_mono rt a b hl hs n m hnm e e' he he'

theorem credit_nonneg {rt : Runtime} {a b : BString} (hl : a.length = b.length) {n : ℤ} {e : Edits}
    (he : boundaryEditDistance rt a b n = .ok e) : 0 ≤ transpositionCredit n e.transpositions := by
  refine List.sum_nonneg fun x hx => ?_
  obtain ⟨t, ht, rfl⟩ := List.mem_map.1 hx
  exact (genuine_credit (Props.C07_transpositions_genuine rt a b hl n e he t ht)).2

theorem mem_boundaries {s : BString} {x : ℕ × ℤ} : x ∈ boundaries s ↔ x.2 ∈ typesAt s x.1 := by
  obtain ⟨p, t⟩ := x
  simp only [boundaries, Finset.mem_biUnion, Finset.mem_range, Finset.mem_image, Prod.mk.injEq]
  constructor
  · rintro ⟨q, -, u, hu, rfl, rfl⟩; exact hu
  · intro h
    refine ⟨p, ?_, t, h, rfl, rfl⟩
    by_contra hp
    rw [typesAt, List.getElem?_eq_none (by omega)] at h
    simp at h

/-- Sets of pairs are counted position by position. -/
theorem card_by_position {n : ℕ} (A : Finset (ℕ × ℤ)) (f : ℕ → Finset ℤ)
    (h : ∀ p t, (p, t) ∈ A ↔ p < n ∧ t ∈ f p) : A.card = ∑ p ∈ Finset.range n, (f p).card := by
  have : A = (Finset.range n).biUnion (fun p => (f p).image (fun t => (p, t))) := by
    ext ⟨p, t⟩
    rw [h]
    simp only [Finset.mem_biUnion, Finset.mem_range, Finset.mem_image, Prod.mk.injEq]
    constructor
    · rintro ⟨h1, h2⟩; exact ⟨p, h1, t, h2, rfl, rfl⟩
    · rintro ⟨q, hq, u, hu, rfl, rfl⟩; exact ⟨hq, hu⟩
  rw [this, Finset.card_biUnion]
  · refine Finset.sum_congr rfl fun p _ => ?_
    rw [Finset.card_image_of_injective]
    intro x y hxy; simpa using hxy
  · intro p _ q _ hpq
    rw [Function.onFun, Finset.disjoint_left]
    rintro ⟨r, t⟩ h1 h2
    simp only [Finset.mem_image, Prod.mk.injEq] at h1 h2
    obtain ⟨_, _, rfl, _⟩ := h1
    obtain ⟨_, _, rfl, _⟩ := h2
    exact hpq rfl

theorem typesAt_lt {s : BString} {p : ℕ} {t : ℤ} (h : t ∈ typesAt s p) : p < s.length := by
  by_contra hp
  rw [typesAt, List.getElem?_eq_none (by omega)] at h
  simp at h

theorem matches_card {a b : BString} : matchCount a b = (boundaries a ∩ boundaries b).card := by
  rw [matchCount, card_by_position (n := a.length) _ (fun p => typesAt a p ∩ typesAt b p)]
  intro p t
  simp only [Finset.mem_inter, mem_boundaries]
  exact ⟨fun h => ⟨typesAt_lt h.1, h⟩, fun h => h.2⟩

/-- Without a window the edits are the boundaries of one string only. -/
theorem edits_card {rt : Runtime} {a b : BString} (hl : a.length = b.length) (hs : SharedTypes rt a b)
    (ho : OneSided a b) {n : ℤ} (hn : n ≤ 1) {e : Edits}
    (he : boundaryEditDistance rt a b n = .ok e) :
    editCount e = (symmDiff (boundaries a) (boundaries b)).card := by
  have h1 := (Props.C14_count_partial rt a b hl hs n e he).1
  rw [Props.C13_no_window rt a b hl n hn e he] at h1
  have h2 : editCount e = editsWith a b [] := by
    rw [← h1, editCount, Props.C13_no_window rt a b hl n hn e he]
  rw [h2, editsWith, List.length_nil, zero_add,
    card_by_position (n := a.length) _ (fun p => missedAt a b p)]
  · refine Finset.sum_congr rfl fun p _ => ?_
    rw [missedAt]
    rcases ho p with h | h <;> simp [leftover, transposedAt, h]
  · intro p t
    simp only [Finset.mem_symmDiff, mem_boundaries, missedAt, onlyIn, Finset.mem_union,
      Finset.mem_sdiff]
    constructor
    · rintro (h | h)
      · exact ⟨typesAt_lt h.1, .inl h⟩
      · exact ⟨hl ▸ typesAt_lt h.1, .inr h⟩
    · exact fun h => h.2

end SegEval
