import Verif.Props.ML
import Verif.Props.Mirror
import Verif.Lemmas.Swap
import Verif.Lemmas.Transpose

namespace SegEval.Props

open Spec

/-- C108: exchanging the roles of prediction and truth in a confusion matrix exchanges precision and
recall, of every class and on average, and turns the F-measure for `beta` into the one for
`1 / beta`; so F1 stays what it is. -/
theorem C108_queries {κ : Type} [DecidableEq κ] (o o' : ClassOrder κ) (site site' : List ℕ)
    (m m' : CM κ) (hr : Reachable m) (hr' : Reachable m') (hn : NoFloats m) (ht : Transposed m m')
    (q : Query κ) (hq : ∀ c beta v, q = .fmeasure c beta v → beta ≠ 0) :
    answer (q.exchanged.run o' site' m') = answer (q.run o site m) :=
  transposed_answer o o' site site' q (reachable_sound hr) (reachable_sound hr') hn ht hq

/-- C108: exchanging hypothesis and reference transposes the confusion matrix, whatever the weights.
-/
theorem C108_transposed (rt rt' : Runtime) (kw : SimKw) (a b : Seg) (sa sb : BString)
    (ha : Denotes kw.boundaryFormat a sa) (hb : Denotes kw.boundaryFormat b sb)
    (hs : SharedTypes rt sa sb) (hs' : SharedTypes rt' sa sb) (m m' : CM BLabel)
    (h : boundaryConfusionMatrix rt kw a b = .ok m)
    (h' : boundaryConfusionMatrix rt' kw b a = .ok m') : Transposed m m' := by
  unfold boundaryConfusionMatrix at h h'
  rw [boundaryStatistics_denotes ha hb] at h
  rw [boundaryStatistics_denotes hb ha] at h'
  cases h1 : statisticsOfStrings rt kw.weight kw.nT sa sb with
  | error e => rw [h1] at h; cases h
  | ok st =>
    cases h2 : statisticsOfStrings rt' kw.weight kw.nT sb sa with
    | error e => rw [h2] at h'; cases h'
    | ok st' =>
      rw [h1] at h
      rw [h2] at h'
      obtain ⟨hl, he, hed, _, _, _, hm, _⟩ := statistics_ok h1
      obtain ⟨_, he', hed', _, _, _, hm', _⟩ := statistics_ok h2
      obtain ⟨p1, p2, p3⟩ := C11_mirrored rt rt' sa sb hl kw.nT hs hs' _ _ he he'
      refine incrs_transposed ?_ (matrix_incrs h) (matrix_incrs h')
      simp only [incrsOf, List.map_append, List.map_map]
      rw [hm, hm', hed, hed']
      refine List.Perm.append (List.Perm.append (List.Perm.append ?_ ?_) ?_) ?_
      · exact (matches_perm_swap rt rt' 0 sa sb).map _
      · exact p1.map _
      · refine (p3.map _).trans (List.Perm.of_eq ?_)
        rw [List.map_map]; rfl
      · refine (p2.map _).trans (List.Perm.of_eq ?_)
        rw [List.map_map]
        refine List.map_congr_left (fun d _ => ?_)
        obtain ⟨t, s⟩ := d
        cases s <;> rfl

/-- C108: the precision of a segmentation against a reference is the recall of the reference against
it, and the other way round, for every boundary type and on average; F1 is symmetric. -/
theorem C108_exchange (rt rt' : Runtime) (kw : SimKw) (hw : Supplied kw.weight) (a b : Seg)
    (sa sb : BString)
    (ha : Denotes kw.boundaryFormat a sa) (hb : Denotes kw.boundaryFormat b sb)
    (hs : SharedTypes rt sa sb) (hs' : SharedTypes rt' sa sb) (m : CM BLabel)
    (h : boundaryConfusionMatrix rt kw a b = .ok m) :
    ∃ m', boundaryConfusionMatrix rt' kw b a = .ok m' ∧
      ∀ (o o' : ClassOrder BLabel) (site site' : List ℕ) (c : Option BLabel) (v : Average),
        answer (recall o' site' c v m') = answer (precision o site c v m) ∧
        answer (precision o' site' c v m') = answer (recall o site c v m) ∧
        answer (fmeasure o' site' c 1 v m') = answer (fmeasure o site c 1 v m) := by
  have tot : ∀ {rt : Runtime} {a b : BString} {st : Statistics},
      statisticsOfStrings rt kw.weight kw.nT a b = .ok st →
      ∃ m, matrixOfStatistics kw.weight kw.nT st = .ok m ∧ NoFloats m := by
    intro rt a b st hst
    obtain ⟨_, _, _, hce, _⟩ := statistics_ok hst
    have : ∃ x, kw.weight.t (editsOf rt a b kw.nT).transpositions kw.nT = .ok x := by
      unfold countEdits at hce
      generalize kw.weight.t (editsOf rt a b kw.nT).transpositions kw.nT = r at hce ⊢
      cases r with
      | ok x => exact ⟨x, rfl⟩
      | error e => exfalso; revert hce; repeat' split
                   all_goals simp_all
    obtain ⟨x, hx⟩ := this
    exact matrix_total hw hx
  have hd : boundaryStatistics rt kw.boundaryFormat kw.nT kw.weight a b =
      statisticsOfStrings rt kw.weight kw.nT sa sb := boundaryStatistics_denotes ha hb
  have hd' : boundaryStatistics rt' kw.boundaryFormat kw.nT kw.weight b a =
      statisticsOfStrings rt' kw.weight kw.nT sb sa := boundaryStatistics_denotes hb ha
  have h0 := h
  unfold boundaryConfusionMatrix at h0
  rw [hd] at h0
  rcases stats_swap hw (nT := kw.nT) hs hs' with ⟨e, e1, _⟩ | ⟨st, st', e1, e2, _⟩
  · rw [e1] at h0; cases h0
  · rw [e1] at h0
    obtain ⟨m0, h1, hn⟩ := tot e1
    obtain ⟨m', h2, _⟩ := tot e2
    have : m0 = m := Except.ok.inj (h1.symm.trans h0)
    subst this
    have h' : boundaryConfusionMatrix rt' kw b a = .ok m' := by
      unfold boundaryConfusionMatrix
      rw [hd', e2]
      exact h2
    have ht := C108_transposed rt rt' kw a b sa sb ha hb hs hs' _ _ h h'
    have hr := C38_reachable rt kw a b sa sb ha hb _ h
    have hr' := C38_reachable rt' kw b a sb sa hb ha _ h'
    refine ⟨m', h', fun o o' site site' c v => ⟨?_, ?_, ?_⟩⟩
    · exact C108_queries o o' site site' _ _ hr hr' hn ht (.precision c v) (by simp)
    · exact C108_queries o o' site site' _ _ hr hr' hn ht (.recall c v) (by simp)
    · have := C108_queries o o' site site' _ _ hr hr' hn ht (.fmeasure c 1 v)
        (fun c' beta v' h => by cases h; norm_num)
      simp only [Query.exchanged, inv_one] at this
      exact this

/-- `None` before the boundary types. -/
def labelLe : BLabel → BLabel → Prop
  | none, _ => True
  | some _, none => False
  | some x, some y => x ≤ y

instance : DecidableRel labelLe
  | none, _ => isTrue trivial
  | some _, none => isFalse id
  | some x, some y => inferInstanceAs (Decidable (x ≤ y))

instance : Std.Total labelLe := ⟨fun x y => by
  cases x <;> cases y <;> simp only [labelLe, or_true, or_false]
  exact le_total _ _⟩

instance : IsTrans BLabel labelLe := ⟨fun x y z h h' => by
  cases x <;> cases y <;> cases z <;> simp only [labelLe] at h h' ⊢
  exact h.trans h'⟩

instance : Std.Antisymm labelLe := ⟨fun x y h h' => by
  cases x <;> cases y <;> simp only [labelLe] at h h' ⊢
  rw [le_antisymm h h']⟩

/-- Labels in ascending order, for examples. -/
def ascB : ClassOrder BLabel := ClassOrder.sorted labelLe

example : (boundaryConfusionMatrix .ascending kwSets (.sets exA) (.sets exB)).toOption.map
      (fun m => (answer (precision ascB [] (some (some 1)) .micro m),
        answer (recall ascB [] (some (some 1)) .micro m), answer (precision ascB [] none .macro m))) =
      some (some 1, some (1 / 5), some (2 / 5)) ∧
    (boundaryConfusionMatrix .ascending kwSets (.sets exB) (.sets exA)).toOption.map
      (fun m => (answer (precision ascB [] (some (some 1)) .micro m),
        answer (recall ascB [] (some (some 1)) .micro m), answer (recall ascB [] none .macro m))) =
      some (some (1 / 5), some 1, some (2 / 5)) := by decide +kernel

end SegEval.Props
