import Verif.Lemmas.Edit

namespace SegEval

open Spec

/-! ## `itertools.permutations` -/

theorem mem_picks {α : Type _} {l : List α} {p : α × List α} :
    p ∈ picks l ↔ ∃ l1 l2, l = l1 ++ p.1 :: l2 ∧ p.2 = l1 ++ l2 := by
  induction l generalizing p with
  | nil => simp [picks]
  | cons x xs ih =>
    simp only [picks, List.mem_cons, List.mem_map]
    constructor
    · rintro (rfl | ⟨q, hq, rfl⟩)
      · exact ⟨[], xs, rfl, rfl⟩
      · obtain ⟨l1, l2, h1, h2⟩ := ih.1 hq
        exact ⟨x :: l1, l2, by simp [h1], by simp [h2]⟩
    · rintro ⟨l1, l2, h1, h2⟩
      cases l1 with
      | nil =>
        left
        simp only [List.nil_append, List.cons.injEq] at h1 h2
        exact Prod.ext h1.1.symm (by rw [h2, h1.2])
      | cons y l1 =>
        right
        simp only [List.cons_append, List.cons.injEq] at h1 h2
        exact ⟨(p.1, l1 ++ l2), ih.2 ⟨l1, l2, h1.2, rfl⟩, Prod.ext rfl (by rw [h2, h1.1])⟩

theorem mem_permsOf {α : Type _} {n : ℕ} {l r : List α} (h : l.length = n) :
    r ∈ permsOf n l ↔ r.Perm l := by
  induction n generalizing l r with
  | zero =>
    have : l = [] := List.length_eq_zero_iff.1 h
    subst this
    simp [permsOf]
  | succ n ih =>
    simp only [permsOf, List.mem_flatMap, List.mem_map]
    constructor
    · rintro ⟨p, hp, q, hq, rfl⟩
      obtain ⟨l1, l2, h1, h2⟩ := mem_picks.1 hp
      have hl : p.2.length = n := by
        rw [h2, List.length_append]; rw [h1, List.length_append, List.length_cons] at h; omega
      have := (ih hl).1 hq
      rw [h2] at this
      rw [h1]
      exact (this.cons p.1).trans (List.perm_middle.symm)
    · intro hr
      cases r with
      | nil =>
        have := hr.length_eq
        simp [h] at this
      | cons x r =>
        have hx : x ∈ l := hr.mem_iff.1 (by simp)
        obtain ⟨l1, l2, rfl⟩ := List.append_of_mem hx
        have hp : (r).Perm (l1 ++ l2) := (List.perm_cons x).1 (hr.trans List.perm_middle)
        refine ⟨(x, l1 ++ l2), mem_picks.2 ⟨l1, l2, rfl, rfl⟩, r, ?_, rfl⟩
        exact (ih (by rw [List.length_append] at h ⊢; rw [List.length_cons] at h; omega)).2 hp

theorem mem_permutations {α : Type _} {l r : List α} : r ∈ permutations l ↔ r.Perm l :=
  mem_permsOf rfl

/-! ## The search for substitutions -/

/-- The pairs a pair of permutations stands for. -/
def pairsOf (q : List ℤ × List ℤ) : Finset (ℤ × ℤ) := (q.1.zip q.2).toFinset

theorem search_fold (L : List (List ℤ × List ℤ)) (best : ℤ × Finset (ℤ × ℤ))
    (hb : best.1 = pairDelta best.2) :
    ∃ r, L.foldl (fun x q => searchStep x q.1 q.2) (some best) = some r ∧ r.1 = pairDelta r.2 ∧
      (r = best ∨ ∃ q ∈ L, r.2 = pairsOf q) ∧ r.1 ≤ best.1 ∧
      ∀ q ∈ L, r.1 ≤ pairDelta (pairsOf q) := by
  induction L generalizing best with
  | nil => exact ⟨best, rfl, hb, Or.inl rfl, le_refl _, by simp⟩
  | cons q L ih =>
    simp only [List.foldl_cons]
    by_cases hlt : pairDelta (pairsOf q) < best.1
    · have : searchStep (some best) q.1 q.2 = some (pairDelta (pairsOf q), pairsOf q) := by
        simp only [searchStep]; exact if_pos hlt
      rw [this]
      obtain ⟨r, h1, h2, h3, h4, h5⟩ := ih (pairDelta (pairsOf q), pairsOf q) rfl
      refine ⟨r, h1, h2, Or.inr ?_, by simp only at h4; omega, ?_⟩
      · rcases h3 with rfl | ⟨q', hq', h⟩
        · exact ⟨q, by simp, rfl⟩
        · exact ⟨q', by simp [hq'], h⟩
      · intro q' hq'
        rcases List.mem_cons.1 hq' with rfl | hq'
        · exact h4
        · exact h5 q' hq'
    · have : searchStep (some best) q.1 q.2 = some best := by
        simp only [searchStep]; exact if_neg hlt
      rw [this]
      obtain ⟨r, h1, h2, h3, h4, h5⟩ := ih best hb
      refine ⟨r, h1, h2, ?_, h4, ?_⟩
      · rcases h3 with rfl | ⟨q', hq', h⟩
        · exact Or.inl rfl
        · exact Or.inr ⟨q', by simp [hq'], h⟩
      · intro q' hq'
        rcases List.mem_cons.1 hq' with rfl | hq'
        · omega
        · exact h5 q' hq'

theorem search_fold_none (L : List (List ℤ × List ℤ)) (hL : L ≠ []) :
    ∃ r, L.foldl (fun x q => searchStep x q.1 q.2) none = some r ∧ r.1 = pairDelta r.2 ∧
      (∃ q ∈ L, r.2 = pairsOf q) ∧ ∀ q ∈ L, r.1 ≤ pairDelta (pairsOf q) := by
  cases L with
  | nil => exact absurd rfl hL
  | cons q L =>
    obtain ⟨r, h1, h2, h3, h4, h5⟩ := search_fold L (pairDelta (pairsOf q), pairsOf q) rfl
    refine ⟨r, h1, h2, ?_, ?_⟩
    · rcases h3 with rfl | ⟨q', hq', h⟩
      · exact ⟨q, by simp, rfl⟩
      · exact ⟨q', by simp [hq'], h⟩
    · intro q' hq'
      rcases List.mem_cons.1 hq' with rfl | hq'
      · exact h4
      · exact h5 q' hq'

theorem bestSubstitutions_eq (A B : Finset ℤ) :
    bestSubstitutions A B =
      ((permutations (sortedZ A)).flatMap (fun pa => (permutations (sortedZ B)).map (fun pb => (pa, pb)))).foldl
        (fun x q => searchStep x q.1 q.2) none := by
  rw [bestSubstitutions, List.foldl_flatMap]
  congr 1
  funext x pa
  rw [List.foldl_map]

theorem zip_pairing {A B : Finset ℤ} {pa pb : List ℤ} (ha : pa.Perm (sortedZ A))
    (hb : pb.Perm (sortedZ B)) : Pairing A B (pairsOf (pa, pb)) := by
  have hna : pa.Nodup := ha.nodup_iff.2 (sortedZ_nodup A)
  have hnb : pb.Nodup := hb.nodup_iff.2 (sortedZ_nodup B)
  have hidx : ∀ p, p ∈ pairsOf (pa, pb) →
      ∃ k : ℕ, pa[k]? = some p.1 ∧ pb[k]? = some p.2 := by
    intro p hp
    simp only [pairsOf, List.mem_toFinset] at hp
    obtain ⟨k, hk⟩ := List.mem_iff_getElem?.1 hp
    rw [List.getElem?_zip_eq_some] at hk
    exact ⟨k, hk⟩
  refine ⟨?_, ?_, ?_, ?_, ?_⟩
  · intro p hp
    simp only [pairsOf, List.mem_toFinset] at hp
    exact (mem_sortedZ A _).1 (ha.mem_iff.1 (List.of_mem_zip hp).1)
  · intro p hp
    simp only [pairsOf, List.mem_toFinset] at hp
    exact (mem_sortedZ B _).1 (hb.mem_iff.1 (List.of_mem_zip hp).2)
  · intro p hp q hq h
    obtain ⟨k, h1, h2⟩ := hidx p hp
    obtain ⟨l, h3, h4⟩ := hidx q hq
    have hkl : k = l := by
      obtain ⟨hk, e1⟩ := List.getElem?_eq_some_iff.1 h1
      obtain ⟨hl, e2⟩ := List.getElem?_eq_some_iff.1 h3
      exact (List.Nodup.getElem_inj_iff hna).1 (e1.trans (h.trans e2.symm))
    subst hkl
    rw [h2] at h4
    exact Prod.ext h (Option.some.inj h4)
  · intro p hp q hq h
    obtain ⟨k, h1, h2⟩ := hidx p hp
    obtain ⟨l, h3, h4⟩ := hidx q hq
    have hkl : k = l := by
      obtain ⟨hk, e1⟩ := List.getElem?_eq_some_iff.1 h2
      obtain ⟨hl, e2⟩ := List.getElem?_eq_some_iff.1 h4
      exact (List.Nodup.getElem_inj_iff hnb).1 (e1.trans (h.trans e2.symm))
    subst hkl
    rw [h1] at h3
    exact Prod.ext (Option.some.inj h3) h
  · have hnz : (pa.zip pb).Nodup := by
      rcases le_total pa.length pb.length with hl | hl
      · have : ((pa.zip pb).map Prod.fst).Nodup := by rw [List.map_fst_zip hl]; exact hna
        exact List.Nodup.of_map _ this
      · have : ((pa.zip pb).map Prod.snd).Nodup := by rw [List.map_snd_zip hl]; exact hnb
        exact List.Nodup.of_map _ this
    rw [pairsOf, List.toFinset_card_of_nodup hnz, List.length_zip, ha.length_eq, hb.length_eq,
      sortedZ_length, sortedZ_length]

theorem image_card_of_injOn {S : Finset (ℤ × ℤ)} {f : ℤ × ℤ → ℤ}
    (h : ∀ p ∈ S, ∀ q ∈ S, f p = f q → p = q) : (S.image f).card = S.card :=
  Finset.card_image_of_injOn (fun p hp q hq hpq => h p hp q hq hpq)

theorem pairing_zip {A B : Finset ℤ} {S : Finset (ℤ × ℤ)} (h : Pairing A B S) :
    ∃ pa pb : List ℤ, pa.Perm (sortedZ A) ∧ pb.Perm (sortedZ B) ∧ pairsOf (pa, pb) = S := by
  have hsA : S.image Prod.fst ⊆ A := by
    intro x hx; obtain ⟨p, hp, rfl⟩ := Finset.mem_image.1 hx; exact h.left p hp
  have hsB : S.image Prod.snd ⊆ B := by
    intro x hx; obtain ⟨p, hp, rfl⟩ := Finset.mem_image.1 hx; exact h.right p hp
  have hcA : (S.image Prod.fst).card = S.card := image_card_of_injOn h.injLeft
  have hcB : (S.image Prod.snd).card = S.card := image_card_of_injOn h.injRight
  have perm_of : ∀ (X : Finset ℤ) (l : List ℤ), l.Nodup → (∀ x, x ∈ l ↔ x ∈ X) →
      l.Perm (sortedZ X) := fun X l hn hm =>
    (List.perm_ext_iff_of_nodup hn (sortedZ_nodup X)).2 (fun x => by rw [hm, mem_sortedZ])
  have hmapn : ∀ f : ℤ × ℤ → ℤ, (∀ p ∈ S, ∀ q ∈ S, f p = f q → p = q) →
      ((sortedP S).map f).Nodup := by
    intro f hf
    have hS : (sortedP S).Nodup := by
      have := S.nodup; rw [← sortedP_coe S] at this; exact Multiset.coe_nodup.1 this
    refine List.Nodup.map_on ?_ hS
    have hmem : ∀ x, x ∈ sortedP S ↔ x ∈ S := fun x => by
      rw [← Multiset.mem_coe, sortedP_coe]; exact Iff.rfl
    intro x hx y hy hxy
    exact hf x ((hmem x).1 hx) y ((hmem y).1 hy) hxy
  have hmem : ∀ x, x ∈ sortedP S ↔ x ∈ S := fun x => by
    rw [← Multiset.mem_coe, sortedP_coe]; exact Iff.rfl
  have mk : ∀ (X : Finset ℤ) (f : ℤ × ℤ → ℤ), (∀ p ∈ S, ∀ q ∈ S, f p = f q → p = q) →
      S.image f ⊆ X →
      ((sortedP S).map f ++ sortedZ (X \ S.image f)).Perm (sortedZ X) := by
    intro X f hf hsub
    apply perm_of
    · rw [List.nodup_append]
      refine ⟨hmapn f hf, sortedZ_nodup _, ?_⟩
      rintro x hx y hy rfl
      rw [mem_sortedZ, Finset.mem_sdiff] at hy
      obtain ⟨p, hp, hpx⟩ := List.mem_map.1 hx
      exact hy.2 (Finset.mem_image.2 ⟨p, (hmem p).1 hp, hpx⟩)
    · intro x
      rw [List.mem_append, List.mem_map, mem_sortedZ, Finset.mem_sdiff]
      constructor
      · rintro (⟨p, hp, rfl⟩ | ⟨h1, _⟩)
        · exact hsub (Finset.mem_image.2 ⟨p, (hmem p).1 hp, rfl⟩)
        · exact h1
      · intro hx
        by_cases hi : x ∈ S.image f
        · obtain ⟨p, hp, rfl⟩ := Finset.mem_image.1 hi
          exact Or.inl ⟨p, (hmem p).2 hp, rfl⟩
        · exact Or.inr ⟨hx, hi⟩
  refine ⟨_, _, mk A Prod.fst h.injLeft hsA, mk B Prod.snd h.injRight hsB, ?_⟩
  have hz : ((sortedP S).map Prod.fst ++ sortedZ (A \ S.image Prod.fst)).zip
      ((sortedP S).map Prod.snd ++ sortedZ (B \ S.image Prod.snd)) =
      sortedP S ++ (sortedZ (A \ S.image Prod.fst)).zip (sortedZ (B \ S.image Prod.snd)) := by
    rw [List.zip_append (by simp)]
    congr 1
    induction sortedP S with
    | nil => rfl
    | cons x xs ih => simp [ih]
  have hnil : (sortedZ (A \ S.image Prod.fst)).zip (sortedZ (B \ S.image Prod.snd)) = [] := by
    have hA : (A \ S.image Prod.fst).card = A.card - S.card := by
      rw [Finset.card_sdiff_of_subset hsA, hcA]
    have hB : (B \ S.image Prod.snd).card = B.card - S.card := by
      rw [Finset.card_sdiff_of_subset hsB, hcB]
    apply List.eq_nil_of_length_eq_zero
    rw [List.length_zip, sortedZ_length, sortedZ_length, hA, hB, h.full]
    omega
  show (List.zip _ _).toFinset = S
  rw [hz, hnil, List.append_nil]
  ext x; rw [List.mem_toFinset, hmem]

theorem permutations_self {α : Type _} (l : List α) : l ∈ permutations l :=
  mem_permutations.2 (List.Perm.refl l)

/-- The search returns a cheapest complete pairing. -/
theorem bestSubstitutions_spec (A B : Finset ℤ) :
    ∃ S, bestSubstitutions A B = some (distance S, S) ∧ Cheapest A B S := by
  have hne : ((permutations (sortedZ A)).flatMap
      (fun pa => (permutations (sortedZ B)).map (fun pb => (pa, pb)))) ≠ [] := by
    intro h0
    have : (sortedZ A, sortedZ B) ∈ ((permutations (sortedZ A)).flatMap
        (fun pa => (permutations (sortedZ B)).map (fun pb => (pa, pb)))) := by
      simp only [List.mem_flatMap, List.mem_map]
      exact ⟨_, permutations_self _, _, permutations_self _, rfl⟩
    rw [h0] at this; simp at this
  obtain ⟨r, h1, h2, ⟨q, hq, hq2⟩, h4⟩ := search_fold_none _ hne
  rw [← bestSubstitutions_eq] at h1
  refine ⟨r.2, ?_, ?_, ?_⟩
  · rw [h1]; exact congrArg some (Prod.ext h2 rfl)
  · simp only [List.mem_flatMap, List.mem_map] at hq
    obtain ⟨pa, hpa, pb, hpb, rfl⟩ := hq
    rw [hq2]
    exact zip_pairing (mem_permutations.1 hpa) (mem_permutations.1 hpb)
  · intro S' hS'
    obtain ⟨pa, pb, hpa, hpb, rfl⟩ := pairing_zip hS'
    have := h4 (pa, pb) (by
      simp only [List.mem_flatMap, List.mem_map]
      exact ⟨_, mem_permutations.2 hpa, _, mem_permutations.2 hpb, rfl⟩)
    rw [h2] at this
    exact this

/-- The chosen pairing. -/
def bestPairs (A B : Finset ℤ) : Finset (ℤ × ℤ) :=
  match bestSubstitutions A B with
  | none => ∅
  | some (_, s) => s

theorem bestPairs_cheapest (A B : Finset ℤ) : Cheapest A B (bestPairs A B) := by
  obtain ⟨S, h1, h2⟩ := bestSubstitutions_spec A B
  rw [bestPairs, h1]; exact h2

theorem Spec.Pairing.card_left {A B : Finset ℤ} {S : Finset (ℤ × ℤ)} (h : Pairing A B S) :
    (A \ S.image Prod.fst).card = A.card - B.card := by
  have hsA : S.image Prod.fst ⊆ A := by
    intro x hx; obtain ⟨p, hp, rfl⟩ := Finset.mem_image.1 hx; exact h.left p hp
  rw [Finset.card_sdiff_of_subset hsA, image_card_of_injOn h.injLeft, h.full]; omega

theorem Spec.Pairing.card_right {A B : Finset ℤ} {S : Finset (ℤ × ℤ)} (h : Pairing A B S) :
    (B \ S.image Prod.snd).card = B.card - A.card := by
  have hsB : S.image Prod.snd ⊆ B := by
    intro x hx; obtain ⟨p, hp, rfl⟩ := Finset.mem_image.1 hx; exact h.right p hp
  rw [Finset.card_sdiff_of_subset hsB, image_card_of_injOn h.injRight, h.full]; omega

/-- The additions reported at one position. -/
def addsOf (rt : Runtime) (i : ℕ) (A B : Finset ℤ) : List Addition :=
  (rt.order [1, i] (A \ (bestPairs A B).image Prod.fst)).map (fun t => Addition.mk t .a) ++
  (rt.order [2, i] (B \ (bestPairs A B).image Prod.snd)).map (fun t => Addition.mk t .b)

/-- The substitutions reported at one position. -/
def subsOf (rt : Runtime) (i : ℕ) (A B : Finset ℤ) : List Substitution :=
  (rt.orderP [3, i] (bestPairs A B)).map (fun p => Substitution.mk p.1 p.2)

theorem additionsSubstitutionsSets_eq (rt : Runtime) (i : ℕ) (A B : Finset ℤ)
    (hd : _root_.Disjoint A B) :
    additionsSubstitutionsSets rt i (A ∪ B) A B =
      if (A.card - B.card) + (B.card - A.card) ≤ 256 then
        .ok (addsOf rt i A B, subsOf rt i A B) else .error .assertionError := by
  have hp := (bestPairs_cheapest A B).1
  set S := bestPairs A B with hS
  have hsA : S.image Prod.fst ⊆ A := by
    intro x hx; obtain ⟨p, hp', rfl⟩ := Finset.mem_image.1 hx; exact hp.left p hp'
  have hsB : S.image Prod.snd ⊆ B := by
    intro x hx; obtain ⟨p, hp', rfl⟩ := Finset.mem_image.1 hx; exact hp.right p hp'
  rw [Finset.disjoint_left] at hd
  have eA : A \ (S.image Prod.fst ∪ S.image Prod.snd) = A \ S.image Prod.fst := by
    ext x; simp only [Finset.mem_sdiff, Finset.mem_union, not_or]
    exact ⟨fun h => ⟨h.1, h.2.1⟩, fun h => ⟨h.1, h.2, fun hx => hd h.1 (hsB hx)⟩⟩
  have eB : B \ (S.image Prod.fst ∪ S.image Prod.snd) = B \ S.image Prod.snd := by
    ext x; simp only [Finset.mem_sdiff, Finset.mem_union, not_or]
    exact ⟨fun h => ⟨h.1, h.2.2⟩, fun h => ⟨h.1, fun hx => hd (hsA hx) h.1, h.2⟩⟩
  have eD : (A ∪ B) \ (S.image Prod.fst ∪ S.image Prod.snd) =
      (A \ S.image Prod.fst) ∪ (B \ S.image Prod.snd) := by
    rw [Finset.union_sdiff_distrib, eA, eB]
  have hcard : ((A \ S.image Prod.fst) ∪ (B \ S.image Prod.snd)).card =
      (A.card - B.card) + (B.card - A.card) := by
    rw [Finset.card_union_of_disjoint, hp.card_left, hp.card_right]
    rw [Finset.disjoint_left]
    intro x h1 h2
    exact hd (Finset.mem_sdiff.1 h1).1 (Finset.mem_sdiff.1 h2).1
  have hmatch : bestSubstitutions A B = some (distance S, S) := by
    obtain ⟨S', h1, h2⟩ := bestSubstitutions_spec A B
    have : S = S' := by rw [hS, bestPairs, h1]
    rw [this]; exact h1
  unfold additionsSubstitutionsSets
  simp only [hmatch, eA, eB, eD]
  simp only [List.length_append, List.length_map, rt.order_length, hp.card_left, hp.card_right, hcard]
  by_cases hle : (A.card - B.card) + (B.card - A.card) ≤ 256
  · rw [if_pos hle]
    have : isInt ((((A.card - B.card) + (B.card - A.card) : ℕ)) : ℤ)
        ((((A.card - B.card) + (B.card - A.card) : ℕ)) : ℤ) = true := by
      simp only [isInt, smallInt, decide_true, Bool.true_and, Bool.and_eq_true, decide_eq_true_eq]
      omega
    rw [if_pos this]
    rfl
  · rw [if_neg hle]
    have : ¬ isInt ((((A.card - B.card) + (B.card - A.card) : ℕ)) : ℤ)
        ((((A.card - B.card) + (B.card - A.card) : ℕ)) : ℤ) = true := by
      simp only [isInt, smallInt, decide_true, Bool.true_and, Bool.and_eq_true, decide_eq_true_eq]
      omega
    rw [if_neg this]

end SegEval
