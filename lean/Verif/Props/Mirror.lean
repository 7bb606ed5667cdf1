import Verif.Props.Edit
import Verif.Lemmas.Mirror

namespace SegEval.Props

open Spec

/-- C107: at every position the substitutions are the preferred pairing of what transpositions leave
there: a cheapest complete one, without crossings, and with the smallest types of the larger set
where several are cheapest.  The additions are the unpaired rest. -/
theorem C107_preferred (rt : Runtime) (a b : BString) (hl : a.length = b.length)
    (nT : ℤ) (e : Edits) (he : boundaryEditDistance rt a b nT = .ok e) :
    ∃ S : ℕ → Finset (ℤ × ℤ),
      (∀ p, Preferred (leftover a b e.transpositions p) (leftover b a e.transpositions p) (S p)) ∧
      (e.substitutions : Multiset Substitution) =
        ∑ p ∈ Finset.range a.length, (S p).val.map (fun q => ⟨q.1, q.2⟩) ∧
      (e.additions : Multiset Addition) = ∑ p ∈ Finset.range a.length,
        ((leftover a b e.transpositions p \ (S p).image Prod.fst).val.map (fun t => ⟨t, .a⟩) +
         (leftover b a e.transpositions p \ (S p).image Prod.snd).val.map (fun t => ⟨t, .b⟩)) := by
  rw [bed_edits (le_of_eq hl) he]
  refine ⟨fun p => bestPairs (leftover a b (allT rt a b nT) p) (leftover b a (allT rt a b nT) p),
    fun p => bestPairs_preferred _ _ (leftover_disjoint _ _ _ _), ?_, ?_⟩
  · rw [editsOf, coe_flatMap_range]
    refine Finset.sum_congr rfl (fun p _ => ?_)
    rw [subsOf, ← Multiset.map_coe]
    congr 1
    have h1 := rt.orderP_toFinset [3, p]
      (bestPairs (leftover a b (allT rt a b nT) p) (leftover b a (allT rt a b nT) p))
    have h2 := rt.orderP_nodup [3, p]
      (bestPairs (leftover a b (allT rt a b nT) p) (leftover b a (allT rt a b nT) p))
    show _ = (bestPairs (leftover a b (allT rt a b nT) p) (leftover b a (allT rt a b nT) p)).val
    conv_rhs => rw [← h1]
    rw [List.toFinset_val, h2.dedup]
  · rw [editsOf, coe_flatMap_range]
    refine Finset.sum_congr rfl (fun p _ => ?_)
    have key : ∀ site (X : Finset ℤ), ((rt.order site X : List ℤ) : Multiset ℤ) = X.val := by
      intro site X
      conv_rhs => rw [← rt.order_toFinset site X]
      rw [List.toFinset_val, (rt.order_nodup site X).dedup]
    rw [addsOf, ← Multiset.coe_add, ← Multiset.map_coe, ← Multiset.map_coe, key, key]

/-- C107: two disjoint sets have exactly one preferred pairing, so that C107_preferred and C65 leave
nothing open but the order of the reported lists. -/
theorem C107_determined (A B : Finset ℤ) (hd : _root_.Disjoint A B) : ∃! S, Preferred A B S :=
  ⟨_, bestPairs_preferred A B hd, fun _ h => preferred_unique hd h (bestPairs_preferred A B hd)⟩

/-- C107: for one boundary that could become either of two equally near types, the smaller type is
reported, and the larger one is an addition. -/
theorem C107_smaller (rt : Runtime) (t d nT : ℤ) (hd : 0 < d) :
    boundaryEditDistance rt [{t}] [{t - d, t + d}] nT = .ok ⟨[⟨t + d, .b⟩], [⟨t, t - d⟩], []⟩ := by
  have hnil : allT rt [{t}] [{t - d, t + d}] nT = [] := by
    refine List.eq_nil_iff_forall_not_mem.2 (fun x hx => ?_)
    have h := allT_genuine rt _ _ nT x hx
    have h1 := h.ordered
    have h2 := h.inRange
    simp at h2; omega
  have e1 : leftover [{t}] [{t - d, t + d}] [] 0 = {t} := by
    simp only [leftover, onlyIn, typesAt, transposedAt_nil, Finset.sdiff_empty]
    ext x
    simp only [List.getElem?_cons_zero, Option.getD_some, Finset.mem_sdiff, Finset.mem_singleton,
      Finset.mem_insert, not_or]
    omega
  have e2 : leftover [{t - d, t + d}] [{t}] [] 0 = {t - d, t + d} := by
    simp only [leftover, onlyIn, typesAt, transposedAt_nil, Finset.sdiff_empty]
    ext x
    simp only [List.getElem?_cons_zero, Option.getD_some, Finset.mem_sdiff, Finset.mem_singleton,
      Finset.mem_insert]
    omega
  have hc2 : ({t - d, t + d} : Finset ℤ).card = 2 := Finset.card_pair (by omega)
  have hdisj : _root_.Disjoint ({t} : Finset ℤ) {t - d, t + d} := by
    rw [Finset.disjoint_left]
    intro x hx
    simp only [Finset.mem_singleton, Finset.mem_insert] at hx ⊢
    omega
  have shape : ∀ S', Pairing ({t} : Finset ℤ) {t - d, t + d} S' →
      S' = {(t, t - d)} ∨ S' = {(t, t + d)} := by
    intro S' h
    have hcard : S'.card = 1 := by rw [h.full, hc2]; rfl
    obtain ⟨p, rfl⟩ := Finset.card_eq_one.1 hcard
    have h1 := h.left p (by simp)
    have h2 := h.right p (by simp)
    simp only [Finset.mem_singleton, Finset.mem_insert] at h1 h2
    rcases h2 with h2 | h2
    · exact Or.inl (by rw [show p = (t, t - d) from Prod.ext h1 h2])
    · exact Or.inr (by rw [show p = (t, t + d) from Prod.ext h1 h2])
  have hdist : ∀ S', Pairing ({t} : Finset ℤ) {t - d, t + d} S' → distance S' = d := by
    intro S' h
    rcases shape S' h with rfl | rfl <;> simp only [distance, Finset.sum_singleton]
    · rw [show t - (t - d) = d by omega, abs_of_pos hd]
    · rw [show t - (t + d) = -d by omega, abs_neg, abs_of_pos hd]
  have hpair : Pairing ({t} : Finset ℤ) {t - d, t + d} {(t, t - d)} := by
    refine ⟨by simp, by simp, by simp, by simp, ?_⟩
    rw [hc2]; rfl
  have hbest : bestPairs {t} {t - d, t + d} = {(t, t - d)} := by
    refine preferred_unique hdisj (bestPairs_preferred _ _ hdisj) ⟨⟨hpair, ?_⟩, ?_, ?_⟩
    · intro S' hS'
      rw [hdist _ hpair, hdist _ hS']
    · intro p hp q hq
      rw [Finset.mem_singleton.1 hp, Finset.mem_singleton.1 hq]
      intro h; omega
    · intro S' hS'
      rcases shape S' hS'.1 with rfl | rfl
      · intro x hx; simp at hx
      · intro x hx
        simp only [typesOf, Finset.image_singleton, Finset.mem_sdiff, Finset.mem_union,
          Finset.mem_singleton, not_or] at hx
        refine ⟨t - d, ?_, by omega⟩
        simp only [typesOf, Finset.image_singleton, Finset.mem_sdiff, Finset.mem_union,
          Finset.mem_singleton, not_or]
        exact ⟨Or.inr trivial, by omega, by omega⟩
  have one : ∀ site (x : ℤ), rt.order site {x} = [x] := by
    intro site x
    have := rt.order_perm site {x}
    rw [show sortedZ {x} = [x] from rfl] at this
    exact List.perm_singleton.1 this
  have none' : ∀ site, rt.order site ∅ = [] := by
    intro site
    have := rt.order_perm site ∅
    rw [show sortedZ ∅ = [] from rfl] at this
    exact List.perm_nil.1 this
  have oneP : ∀ site (x : ℤ × ℤ), rt.orderP site {x} = [x] := by
    intro site x
    refine List.perm_singleton.1 ((List.perm_ext_iff_of_nodup (rt.orderP_nodup _ _)
      (List.nodup_singleton x)).2 (fun y => ?_))
    rw [rt.orderP_mem]; simp
  rw [bed_ok rt (a := [{t}]) (b := [{t - d, t + d}]) (by simp) nT (fun p hp => ?_)]
  · have d1 : ({t} : Finset ℤ) \ {t} = ∅ := by simp
    have d2 : ({t - d, t + d} : Finset ℤ) \ {t - d} = {t + d} := by
      ext x
      simp only [Finset.mem_sdiff, Finset.mem_singleton, Finset.mem_insert]
      omega
    simp only [editsOf, hnil, List.length_singleton, List.range_one, List.flatMap_cons,
      List.flatMap_nil, e1, e2, addsOf, subsOf, hbest, Finset.image_singleton, d1, d2, one, none',
      oneP, List.map_nil, List.map_cons, List.nil_append, List.append_nil]
  · have : p = 0 := by simpa using hp
    subst this
    rw [Balanced, hnil, e1, e2, hc2]
    simp

example : boundaryEditDistance .ascending [{3}] [{1, 5}] 2 = .ok ⟨[⟨5, .b⟩], [⟨3, 1⟩], []⟩ ∧
    boundaryEditDistance .ascending [{1, 2}] [{3, 4}] 2 = .ok ⟨[], [⟨1, 3⟩, ⟨2, 4⟩], []⟩ := by
  decide +kernel

/-- C11, edit by edit: exchanging the strings exchanges the sides of every addition and of every
substitution and changes nothing else but the order of the lists. -/
theorem C11_mirrored (rt rt' : Runtime) (a b : BString) (hl : a.length = b.length) (nT : ℤ)
    (hs : SharedTypes rt a b) (hs' : SharedTypes rt' a b) (e e' : Edits)
    (he : boundaryEditDistance rt a b nT = .ok e) (he' : boundaryEditDistance rt' b a nT = .ok e') :
    e'.transpositions.Perm e.transpositions ∧
    e'.additions.Perm (e.additions.map mirrorA) ∧
    e'.substitutions.Perm (e.substitutions.map mirrorS) := by
  rw [bed_edits (le_of_eq hl) he, bed_edits (le_of_eq hl.symm) he']
  have hp : (allT rt a b nT).Perm (allT rt' b a nT) := by
    rw [← allT_comm hl hs' nT]; exact allT_perm (le_of_eq hl) hs hs' nT
  have hlo : ∀ (x y : BString) p, leftover x y (allT rt' b a nT) p = leftover x y (allT rt a b nT) p :=
    fun x y p => by rw [leftover, leftover, transposedAt_perm hp]
  refine ⟨hp.symm, ?_, ?_⟩
  · simp only [editsOf, hlo, ← hl, List.map_flatMap]
    exact flatMap_perm _ (fun p _ => additions_perm_swap rt rt' p _ _ (leftover_disjoint _ _ _ _))
  · simp only [editsOf, hlo, ← hl, List.map_flatMap]
    exact flatMap_perm _
      (fun p _ => substitutions_perm_swap rt rt' p _ _ (leftover_disjoint _ _ _ _))

example : boundaryEditDistance .ascending [{1, 4}, {2}] [{3}, ∅] 2 =
      .ok ⟨[⟨1, .a⟩, ⟨2, .a⟩], [⟨4, 3⟩], []⟩ ∧
    boundaryEditDistance .ascending [{3}, ∅] [{1, 4}, {2}] 2 =
      .ok ⟨[⟨1, .b⟩, ⟨2, .b⟩], [⟨3, 4⟩], []⟩ := by decide +kernel

end SegEval.Props
