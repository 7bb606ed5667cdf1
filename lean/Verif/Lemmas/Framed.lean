import Verif.Spec.Framed
import Verif.Lemmas.Locality

/-!
# Edits of documents that begin and end alike
-/

namespace SegEval

open Spec

variable {g g' a b : BString} {nT : ℤ}

theorem framed_length (g g' s : BString) : (framed g g' s).length = g.length + (s.length + g'.length) := by
  simp [framed]

theorem typesAt_before {p : ℕ} (h : p < g.length) (s : BString) :
    typesAt (framed g g' s) p = typesAt g p := typesAt_left h

theorem typesAt_within (s : BString) {p : ℕ} (h : p < s.length) :
    typesAt (framed g g' s) (p + g.length) = typesAt s p := by
  rw [framed, typesAt_right, typesAt_left h]

theorem typesAt_after (s : BString) (p : ℕ) :
    typesAt (framed g g' s) (p + (g.length + s.length)) = typesAt g' p := by
  rw [framed, ← List.append_assoc, ← List.length_append, typesAt_right]

theorem missed_frame (hl : a.length = b.length) {p : ℕ}
    (hp : ¬ (g.length ≤ p ∧ p < g.length + a.length)) :
    missedAt (framed g g' a) (framed g g' b) p = ∅ := by
  rcases Nat.lt_or_ge p g.length with h | h
  · simp [missedAt, onlyIn, typesAt_before h]
  · obtain ⟨q, rfl⟩ : ∃ q, p = q + (g.length + a.length) := ⟨p - (g.length + a.length), by omega⟩
    have e1 := typesAt_after (g := g) (g' := g') a q
    have e2 := typesAt_after (g := g) (g' := g') b q
    rw [← hl] at e2
    simp [missedAt, onlyIn, e1, e2]

theorem genuine_frame (hl : a.length = b.length) {t : Transposition}
    (ht : Genuine (framed g g' a) (framed g g' b) nT t) :
    g.length ≤ t.start ∧ t.stop < g.length + a.length := by
  obtain ⟨m1, m2⟩ := moves_missed ht.moves
  have c1 : g.length ≤ t.start ∧ t.start < g.length + a.length := by
    by_contra h; exact m1 (missed_frame hl h)
  have c2 : g.length ≤ t.stop ∧ t.stop < g.length + a.length := by
    by_contra h; exact m2 (missed_frame hl h)
  exact ⟨c1.1, c2.2⟩

theorem part_framed (hl : a.length = b.length) :
    PartOf (framed g g' a) (framed g g' b) nT g.length a b where
  len := hl
  fits := by rw [framed_length]; omega
  left p hp := (typesAt_within a hp).symm
  right p hp := (typesAt_within b (hl ▸ hp)).symm
  inside t ht _ _ _ := genuine_frame hl ht

theorem sharedTypes_framed {rt : Runtime} (hl : a.length = b.length) (hs : SharedTypes rt a b) :
    SharedTypes rt (framed g g' a) (framed g g' b) := by
  intro p t ht
  by_cases hp : g.length ≤ p ∧ p < g.length + a.length
  · obtain ⟨q, rfl⟩ : ∃ q, p = q + g.length := ⟨p - g.length, by omega⟩
    have hq : q < a.length := by omega
    refine hs q t ?_
    rwa [missedAt, onlyIn, onlyIn, typesAt_within a hq, typesAt_within b (hl ▸ hq)] at ht
  · rw [missed_frame hl hp] at ht; simp at ht

/-- The edits are those of what is between. -/
theorem edits_framed {rt rt' : Runtime} (hl : a.length = b.length)
    (hs : SharedTypes rt (framed g g' a) (framed g g' b)) (hs' : SharedTypes rt' a b) :
    (editsOf rt (framed g g' a) (framed g g' b) nT).transpositions.Perm
      ((editsOf rt' a b nT).transpositions.map (moved g.length)) ∧
    (editsOf rt (framed g g' a) (framed g g' b) nT).additions.Perm (editsOf rt' a b nT).additions ∧
    (editsOf rt (framed g g' a) (framed g g' b) nT).substitutions.Perm
      (editsOf rt' a b nT).substitutions := by
  have hL : (framed g g' a).length = (framed g g' b).length := by simp [framed_length, hl]
  have P := part_framed (g := g) (g' := g') (nT := nT) hl
  refine ⟨?_, ?_, ?_⟩
  · have hn := disjoint_nodup (allT_disjoint (le_of_eq hL) hs nT)
    have hn' := disjoint_nodup (allT_disjoint (le_of_eq hl) hs' nT)
    refine (List.perm_ext_iff_of_nodup hn (hn'.map (moved_injective _))).2 fun t => ?_
    simp only [List.mem_map, P.allT_mem hL hs hs']
    constructor
    · intro ht
      have hgt := allT_genuine rt _ _ nT t ht
      obtain ⟨h1, h2⟩ := genuine_frame hl hgt
      have ho := hgt.ordered
      have he : moved g.length ⟨t.start - g.length, t.stop - g.length, t.type⟩ = t := by
        obtain ⟨i, j, d⟩ := t
        simp only [moved, Transposition.mk.injEq] at h1 ho ⊢
        exact ⟨by omega, by omega, trivial⟩
      exact ⟨_, ⟨he.symm ▸ ht, by simp only; omega⟩, he⟩
    · rintro ⟨u, ⟨h, -⟩, rfl⟩
      exact h
  · simp only [editsOf]
    rw [framed_length, range_three, List.flatMap_append, List.flatMap_append, List.flatMap_map,
      List.flatMap_map, List.flatMap_eq_nil_iff.2, List.nil_append,
      (List.flatMap_eq_nil_iff (l := List.range g'.length)).2, List.append_nil]
    · refine flatMap_perm _ fun p hp => ?_
      obtain ⟨l1, l2⟩ := P.leftovers hL hs hs' (List.mem_range.1 hp)
      rw [l1, l2]
      exact addsOf_perm' _ _ _ _ _ _
    · intro p _
      obtain ⟨l1, l2⟩ := leftover_empty_of_missed (missed_frame (g := g) (g' := g') hl
        (p := p + (g.length + a.length)) (by omega)) (allT rt (framed g g' a) (framed g g' b) nT)
      rw [l1, l2, addsOf_empty]
    · intro p hp
      have := List.mem_range.1 hp
      obtain ⟨l1, l2⟩ := leftover_empty_of_missed (missed_frame (g := g) (g' := g') hl
        (p := p) (by omega)) (allT rt (framed g g' a) (framed g g' b) nT)
      rw [l1, l2, addsOf_empty]
  · simp only [editsOf]
    rw [framed_length, range_three, List.flatMap_append, List.flatMap_append, List.flatMap_map,
      List.flatMap_map, List.flatMap_eq_nil_iff.2, List.nil_append,
      (List.flatMap_eq_nil_iff (l := List.range g'.length)).2, List.append_nil]
    · refine flatMap_perm _ fun p hp => ?_
      obtain ⟨l1, l2⟩ := P.leftovers hL hs hs' (List.mem_range.1 hp)
      rw [l1, l2]
      exact subsOf_perm' _ _ _ _ _ _
    · intro p _
      obtain ⟨l1, l2⟩ := leftover_empty_of_missed (missed_frame (g := g) (g' := g') hl
        (p := p + (g.length + a.length)) (by omega)) (allT rt (framed g g' a) (framed g g' b) nT)
      rw [l1, l2, subsOf_empty]
    · intro p hp
      have := List.mem_range.1 hp
      obtain ⟨l1, l2⟩ := leftover_empty_of_missed (missed_frame (g := g) (g' := g') hl
        (p := p) (by omega)) (allT rt (framed g g' a) (framed g g' b) nT)
      rw [l1, l2, subsOf_empty]

theorem balanced_framed {rt rt' : Runtime} (hl : a.length = b.length)
    (hs : SharedTypes rt (framed g g' a) (framed g g' b)) (hs' : SharedTypes rt' a b) :
    (∀ p < (framed g g' a).length, Balanced (framed g g' a) (framed g g' b)
      (allT rt (framed g g' a) (framed g g' b) nT) p) ↔
    ∀ p < a.length, Balanced a b (allT rt' a b nT) p := by
  have hL : (framed g g' a).length = (framed g g' b).length := by simp [framed_length, hl]
  have P := part_framed (g := g) (g' := g') (nT := nT) hl
  constructor
  · intro H p hp
    obtain ⟨l1, l2⟩ := P.leftovers hL hs hs' hp
    have := H (p + g.length) (by rw [framed_length]; omega)
    rw [Balanced] at this ⊢
    rw [l1, l2]; exact this
  · intro H p _
    by_cases hp : g.length ≤ p ∧ p < g.length + a.length
    · obtain ⟨q, rfl⟩ : ∃ q, p = q + g.length := ⟨p - g.length, by omega⟩
      obtain ⟨l1, l2⟩ := P.leftovers hL hs hs' (p := q) (by omega)
      have := H q (by omega)
      rw [Balanced, l1, l2] at this
      exact this
    · obtain ⟨l1, l2⟩ := leftover_empty_of_missed (missed_frame (g := g) (g' := g') hl hp)
        (allT rt (framed g g' a) (framed g g' b) nT)
      rw [Balanced, l1, l2]; simp

theorem matchCount_framed (hl : a.length = b.length) :
    matchCount (framed g g' a) (framed g g' b) = boundaryCount g + matchCount a b + boundaryCount g' := by
  unfold matchCount boundaryCount
  rw [framed_length, Finset.sum_range_add, Finset.sum_range_add, ← add_assoc]
  congr 1
  · congr 1
    · refine Finset.sum_congr rfl fun q hq => ?_
      have hq := Finset.mem_range.1 hq
      rw [typesAt_before hq, typesAt_before hq, Finset.inter_self]
    · refine Finset.sum_congr rfl fun q hq => ?_
      have hq := Finset.mem_range.1 hq
      rw [add_comm, typesAt_within a hq, typesAt_within b (hl ▸ hq)]
  · refine Finset.sum_congr rfl fun q hq => ?_
    have e2 := typesAt_after (g := g) (g' := g') b q
    rw [← hl] at e2
    rw [show g.length + (a.length + q) = q + (g.length + a.length) by omega, typesAt_after a q, e2,
      Finset.inter_self]

theorem uses_framed (hl : a.length = b.length) {t : ℤ} (h : UsesType a b t) :
    UsesType (framed g g' a) (framed g g' b) t := by
  obtain ⟨p, hp | hp⟩ := h
  · by_cases h : p < a.length
    · exact ⟨p + g.length, .inl (by rw [typesAt_within a h]; exact hp)⟩
    · rw [typesAt_beyond (by omega)] at hp; simp at hp
  · by_cases h : p < b.length
    · exact ⟨p + g.length, .inr (by rw [typesAt_within b h]; exact hp)⟩
    · rw [typesAt_beyond (by omega)] at hp; simp at hp

/-- Without boundaries in the frame the types are those of what is between. -/
theorem sameTypes_framed (hl : a.length = b.length) (h : ∀ p, typesAt g p = ∅)
    (h' : ∀ p, typesAt g' p = ∅) : SameTypes a b (framed g g' a) (framed g g' b) := by
  refine fun t => ⟨uses_framed hl, ?_⟩
  have key : ∀ s : BString, ∀ p, t ∈ typesAt (framed g g' s) p → ∃ q, t ∈ typesAt s q := by
    intro s p hp
    rcases Nat.lt_or_ge p g.length with c | c
    · rw [typesAt_before c, h] at hp; simp at hp
    · obtain ⟨q, rfl⟩ : ∃ q, p = q + g.length := ⟨p - g.length, by omega⟩
      rcases Nat.lt_or_ge q s.length with d | d
      · rw [typesAt_within s d] at hp; exact ⟨q, hp⟩
      · obtain ⟨r, rfl⟩ : ∃ r, q = r + s.length := ⟨q - s.length, by omega⟩
        rw [show r + s.length + g.length = r + (g.length + s.length) by omega, typesAt_after, h'] at hp
        simp at hp
  rintro ⟨p, hp | hp⟩
  · obtain ⟨q, hq⟩ := key a p hp; exact ⟨q, .inl hq⟩
  · obtain ⟨q, hq⟩ := key b p hp; exact ⟨q, .inr hq⟩

end SegEval
