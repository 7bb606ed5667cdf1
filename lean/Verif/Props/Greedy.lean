import Verif.Lemmas.Greedy
import Verif.Props.Edit

/-!
# C65: exactly which transpositions are reported
-/

namespace SegEval.Props

open SegEval Spec

/-- C65: of all genuine transpositions exactly those are reported that clash with no earlier reported
one (shorter, or equally long and further left) and do not have, after the earlier ones, a
substitution possible at both ends. -/
theorem C65_greedy (rt : Runtime) (a b : BString) (hl : a.length = b.length) (nT : ℤ)
    (hs : SharedTypes rt a b) (e : Edits) (he : boundaryEditDistance rt a b nT = .ok e)
    (t : Transposition) (ht : Genuine a b nT t) :
    t ∈ e.transpositions ↔ (∀ u ∈ earlier e.transpositions t, ¬ Collide t u) ∧
      ¬ Substitutable a b (earlier e.transpositions t) t := by
  rw [bed_edits (le_of_eq hl) he]
  exact allT_greedy (le_of_eq hl) hs ht

/-- C65: nothing that could be transposed is forgotten: a genuine transposition that is not reported
clashes with a reported one that comes earlier, or both its ends hold boundaries only in the first
and boundaries only in the second string. -/
theorem C65_complete (rt : Runtime) (a b : BString) (hl : a.length = b.length) (nT : ℤ)
    (hs : SharedTypes rt a b) (e : Edits) (he : boundaryEditDistance rt a b nT = .ok e)
    (t : Transposition) (ht : Genuine a b nT t) (hn : t ∉ e.transpositions) :
    (∃ u ∈ e.transpositions, Earlier u t ∧ Collide t u) ∨
    ∀ p, Touches t p → onlyIn a b p ≠ ∅ ∧ onlyIn b a p ≠ ∅ := by
  rw [C65_greedy rt a b hl nT hs e he t ht] at hn
  by_cases hc : ∀ u ∈ earlier e.transpositions t, ¬ Collide t u
  · right
    have hsub : Substitutable a b (earlier e.transpositions t) t := by
      by_contra h; exact hn ⟨hc, h⟩
    intro p hp
    obtain ⟨h1, h2⟩ := hsub p hp
    refine ⟨fun h => h1 ?_, fun h => h2 ?_⟩ <;> rw [leftover, h, Finset.empty_sdiff]
  · left
    push Not at hc
    obtain ⟨u, hu, hcl⟩ := hc
    simp only [earlier, List.mem_filter, decide_eq_true_eq] at hu
    exact ⟨u, hu.1, hu.2, hcl⟩

/-- C65: they are listed by increasing span, and from left to right among those of one span. -/
theorem C65_order (rt : Runtime) (a b : BString) (hl : a.length = b.length) (nT : ℤ)
    (hs : SharedTypes rt a b) (e : Edits) (he : boundaryEditDistance rt a b nT = .ok e) :
    e.transpositions.Pairwise (fun t u => ¬ Earlier u t) := by
  rw [bed_edits (le_of_eq hl) he]
  exact allT_sorted (le_of_eq hl) hs nT

/-- C65: this pins the reported transpositions down: whatever list of genuine transpositions obeys
the same rule has the same members. -/
theorem C65_unique (rt : Runtime) (a b : BString) (hl : a.length = b.length) (nT : ℤ)
    (hs : SharedTypes rt a b) (e : Edits) (he : boundaryEditDistance rt a b nT = .ok e)
    (ts : List Transposition) (hg : ∀ t ∈ ts, Genuine a b nT t)
    (h : ∀ t, Genuine a b nT t → (t ∈ ts ↔ (∀ u ∈ earlier ts t, ¬ Collide t u) ∧
      ¬ Substitutable a b (earlier ts t) t)) (t : Transposition) :
    t ∈ ts ↔ t ∈ e.transpositions := by
  refine greedy_unique hg ?_ h (fun t ht => C65_greedy rt a b hl nT hs e he t ht) t
  rw [bed_edits (le_of_eq hl) he]
  exact allT_genuine rt a b nT

/-- Three boundaries of type 1 in a row: the pair (0, 1) is taken, (1, 2) clashes with it. -/
example : boundaryEditDistance .ascending [{1}, ∅, {1}] [∅, {1}, ∅] 2 =
      .ok ⟨[⟨1, .a⟩], [], [⟨0, 1, 1⟩]⟩ ∧
    Genuine [{1}, ∅, {1}] [∅, {1}, ∅] 2 ⟨1, 2, 1⟩ ∧ Collide ⟨1, 2, 1⟩ ⟨0, 1, 1⟩ :=
  ⟨by decide +kernel, ⟨by decide, by decide, by decide, .inr (by decide +kernel)⟩,
    rfl, 1, .inl rfl, .inr rfl⟩

/-- Both ends admit a substitution, so nothing is transposed. -/
example : boundaryEditDistance .ascending [{1}, {2}] [{2}, {1}] 2 =
      .ok ⟨[], [⟨1, 2⟩, ⟨2, 1⟩], []⟩ ∧
    Genuine [{1}, {2}] [{2}, {1}] 2 ⟨0, 1, 1⟩ :=
  ⟨by decide +kernel, ⟨by decide, by decide, by decide, .inl (by decide +kernel)⟩⟩

end SegEval.Props
