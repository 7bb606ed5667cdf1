import Verif.Lemmas.Relabel
import Verif.Props.Similarity

/-!
# C102: names of boundary types matter only through how far they are apart
-/

namespace SegEval.Props

open SegEval Spec

/-- C102: whatever distinct types the boundary types are renamed to, boundary edit distance reports
the renamed transpositions and as many additions and substitutions; if the renaming keeps the
distances of types, the substitutions have the same total distance. -/
theorem C102_edits (rt rt' : Runtime) (f : ℤ → ℤ) (hf : Function.Injective f) (a b : BString)
    (hl : a.length = b.length) (nT : ℤ) (hs : SharedTypes rt a b)
    (hs' : SharedTypes rt' (relabel f a) (relabel f b)) (e : Edits)
    (he : boundaryEditDistance rt a b nT = .ok e) :
    ∃ e', boundaryEditDistance rt' (relabel f a) (relabel f b) nT = .ok e' ∧
      (e.transpositions.map (retype f)).Perm e'.transpositions ∧
      e'.additions.length = e.additions.length ∧
      e'.substitutions.length = e.substitutions.length ∧
      (KeepsDistances f → (e'.substitutions.map (fun s => |s.typeA - s.typeB|)).sum =
        (e.substitutions.map (fun s => |s.typeA - s.typeB|)).sum) := by
  obtain ⟨hb, rfl⟩ := (bed_iff rt (le_of_eq hl) nT e).1 he
  have hbal := balanced_relabel (rt := rt) (rt' := rt') hf hl hs hs' nT
  obtain ⟨c1, c2, c3, c4⟩ := edits_relabel (rt := rt) (rt' := rt') hf hl hs hs' nT
  refine ⟨_, bed_ok rt' (le_of_eq (by rw [relabel_length, relabel_length, hl])) nT (fun p hp =>
    (hbal p).2 (hb p (by rwa [relabel_length] at hp))), c3, c1.symm, c2.symm,
    fun h => (c4 h).symm⟩

/-- C102: shifting all types, or reversing their order, or both, changes neither similarity. -/
theorem C102_distances (rt rt' : Runtime) (kw : SimKw) (hw : Supplied kw.weight)
    (hr : kw.returnParts = false) (hfmt : kw.boundaryFormat = .sets) (f : ℤ → ℤ)
    (hd : KeepsDistances f) (a b : BString) (hs : SharedTypes rt a b)
    (hs' : SharedTypes rt' (relabel f a) (relabel f b)) :
    boundarySimilarity rt' kw (.sets (relabel f a)) (.sets (relabel f b)) =
      boundarySimilarity rt kw (.sets a) (.sets b) ∧
    segmentationSimilarity rt' kw (.sets (relabel f a)) (.sets (relabel f b)) =
      segmentationSimilarity rt kw (.sets a) (.sets b) := by
  have h := stats_relabel (rt := rt) (rt' := rt') hw (nT := kw.nT) (keeps_injective hd) (.inl hd)
    hs hs'
  have key : SameStats (boundaryStatistics rt kw.boundaryFormat kw.nT kw.weight (.sets a) (.sets b))
      (boundaryStatistics rt' kw.boundaryFormat kw.nT kw.weight (.sets (relabel f a))
        (.sets (relabel f b))) := by
    rw [hfmt]
    exact h
  exact ⟨(boundarySim_same hr key).symm, (segmentationSim_same key).symm⟩

/-- C102: if substitutions are counted rather than scaled, any distinct names will do. -/
theorem C102_counted (rt rt' : Runtime) (kw : SimKw) (hw : Supplied kw.weight)
    (hws : kw.weight.s = weightS) (hr : kw.returnParts = false) (hfmt : kw.boundaryFormat = .sets)
    (f : ℤ → ℤ) (hf : Function.Injective f) (a b : BString) (hs : SharedTypes rt a b)
    (hs' : SharedTypes rt' (relabel f a) (relabel f b)) :
    boundarySimilarity rt' kw (.sets (relabel f a)) (.sets (relabel f b)) =
      boundarySimilarity rt kw (.sets a) (.sets b) ∧
    segmentationSimilarity rt' kw (.sets (relabel f a)) (.sets (relabel f b)) =
      segmentationSimilarity rt kw (.sets a) (.sets b) := by
  have h := stats_relabel (rt := rt) (rt' := rt') hw (nT := kw.nT) hf (.inr hws) hs hs'
  have key : SameStats (boundaryStatistics rt kw.boundaryFormat kw.nT kw.weight (.sets a) (.sets b))
      (boundaryStatistics rt' kw.boundaryFormat kw.nT kw.weight (.sets (relabel f a))
        (.sets (relabel f b))) := by
    rw [hfmt]
    exact h
  exact ⟨(boundarySim_same hr key).symm, (segmentationSim_same key).symm⟩

/-- A shift, and a reversal of the order. -/
example : KeepsDistances (fun t => t + 10) ∧ KeepsDistances (fun t => 6 - t) := by
  constructor
  · intro x y; congr 1; ring
  · intro x y; rw [abs_sub_comm]; congr 1; ring

example : SharedTypes .ascending (relabel (fun t => 1000 * t) exA) (relabel (fun t => 1000 * t) exB) :=
  fun _ _ _ => .inr (fun _ => rfl)

/-- A substitution, a transposition and two additions: both similarities are numbers, the same
after a reversal of the types. -/
example : relabel (fun t => 6 - t) exA ≠ exA ∧
    boundarySimilarity .ascending kwSets (.sets (relabel (fun t => 6 - t) exA))
      (.sets (relabel (fun t => 6 - t) exB)) = .ok (.num (.dec (31 / 60))) ∧
    boundarySimilarity .ascending kwSets (.sets exA) (.sets exB) = .ok (.num (.dec (31 / 60))) := by
  decide +kernel

/-- C102: stretching the types does change the default similarities, since distances are divided by
the number of types in the range and not by the largest distance. -/
theorem C102_not_stretched :
    boundarySimilarity .ascending kwSets (.sets [{1}]) (.sets [{2}]) = .ok (.num (.dec (1 / 2))) ∧
    boundarySimilarity .ascending kwSets (.sets (relabel (fun t => 2 * t) [{1}]))
      (.sets (relabel (fun t => 2 * t) [{2}])) = .ok (.num (.dec (1 / 3))) := by decide +kernel

end SegEval.Props
