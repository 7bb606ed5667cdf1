import Verif.Lemmas.Bed
import Verif.Lemmas.Preferred

namespace SegEval

open Spec

/-! ## There is one preferred pairing -/

theorem notAfter_antisymm {U V : Finset ℤ} (h : NotAfter U V) (h' : NotAfter V U) : U = V := by
  have key : ∀ {U V : Finset ℤ}, NotAfter U V → NotAfter V U → V ⊆ U := by
    intro U V h h'
    by_contra hn
    have hne : (V \ U).Nonempty := by
      rw [Finset.sdiff_nonempty]; exact hn
    obtain ⟨y, hy, hyx⟩ := h _ (Finset.min'_mem _ hne)
    obtain ⟨z, hz, hzy⟩ := h' y hy
    have := Finset.min'_le _ z hz
    omega
  exact Finset.Subset.antisymm (key h' h) (key h h')

/-- The number of elements below `z`. -/
def rankIn (X : Finset ℤ) (z : ℤ) : ℕ := (X.filter (fun x => x < z)).card

theorem rankIn_inj {X : Finset ℤ} {y z : ℤ} (hy : y ∈ X) (hz : z ∈ X)
    (h : rankIn X y = rankIn X z) : y = z := by
  have key : ∀ {y z : ℤ}, y ∈ X → y < z → rankIn X y < rankIn X z := by
    intro y z hy hyz
    apply Finset.card_lt_card
    rw [Finset.ssubset_iff_of_subset]
    · exact ⟨y, by simp [hy, hyz], by simp⟩
    · intro x hx
      rw [Finset.mem_filter] at hx ⊢
      exact ⟨hx.1, lt_trans hx.2 hyz⟩
  rcases lt_trichotomy y z with hlt | heq | hlt
  · have := key hy hlt; omega
  · exact heq
  · have := key hz hlt; omega

theorem rankIn_pairs {A B : Finset ℤ} {S : Finset (ℤ × ℤ)} (hp : Pairing A B S) (hu : Uncrossed S)
    {p : ℤ × ℤ} (hm : p ∈ S) :
    rankIn (S.image Prod.fst) p.1 = rankIn (S.image Prod.snd) p.2 := by
  have h1 : rankIn (S.image Prod.fst) p.1 = (S.filter (fun q => q.1 < p.1)).card := by
    rw [rankIn, Finset.filter_image, Finset.card_image_of_injOn]
    intro q hq q' hq' e
    exact hp.injLeft q (Finset.mem_filter.1 hq).1 q' (Finset.mem_filter.1 hq').1 e
  have h2 : rankIn (S.image Prod.snd) p.2 = (S.filter (fun q => q.2 < p.2)).card := by
    rw [rankIn, Finset.filter_image, Finset.card_image_of_injOn]
    intro q hq q' hq' e
    exact hp.injRight q (Finset.mem_filter.1 hq).1 q' (Finset.mem_filter.1 hq').1 e
  rw [h1, h2]
  congr 1
  ext q
  simp only [Finset.mem_filter]
  refine and_congr_right (fun hq => ⟨hu q hq p hm, fun h => ?_⟩)
  rcases lt_trichotomy q.1 p.1 with hlt | heq | hlt
  · exact hlt
  · rw [hp.injLeft q hq p hm heq] at h; omega
  · have := hu p hm q hq hlt; omega

theorem preferred_unique {A B : Finset ℤ} {S S' : Finset (ℤ × ℤ)} (hd : _root_.Disjoint A B)
    (h : Preferred A B S) (h' : Preferred A B S') : S = S' := by
  have ht : typesOf S = typesOf S' :=
    notAfter_antisymm (h.first _ h'.cheapest) (h'.first _ h.cheapest)
  rw [Finset.disjoint_left] at hd
  have fstOf : ∀ {S : Finset (ℤ × ℤ)}, Pairing A B S → S.image Prod.fst = typesOf S ∩ A := by
    intro S hp
    ext x
    simp only [typesOf, Finset.mem_inter, Finset.mem_union, Finset.mem_image]
    constructor
    · rintro ⟨p, hm, rfl⟩; exact ⟨Or.inl ⟨p, hm, rfl⟩, hp.left p hm⟩
    · rintro ⟨hx | ⟨p, hm, rfl⟩, hA⟩
      · exact hx
      · exact absurd (hp.right p hm) (hd hA)
  have sndOf : ∀ {S : Finset (ℤ × ℤ)}, Pairing A B S → S.image Prod.snd = typesOf S ∩ B := by
    intro S hp
    ext x
    simp only [typesOf, Finset.mem_inter, Finset.mem_union, Finset.mem_image]
    constructor
    · rintro ⟨p, hm, rfl⟩; exact ⟨Or.inr ⟨p, hm, rfl⟩, hp.right p hm⟩
    · rintro ⟨⟨p, hm, rfl⟩ | hx, hB⟩
      · exact absurd hB (hd (hp.left p hm))
      · exact hx
  have e1 : S.image Prod.fst = S'.image Prod.fst := by
    rw [fstOf h.cheapest.1, fstOf h'.cheapest.1, ht]
  have e2 : S.image Prod.snd = S'.image Prod.snd := by
    rw [sndOf h.cheapest.1, sndOf h'.cheapest.1, ht]
  have key : ∀ {S S' : Finset (ℤ × ℤ)}, Preferred A B S → Preferred A B S' →
      S.image Prod.fst = S'.image Prod.fst → S.image Prod.snd = S'.image Prod.snd → S ⊆ S' := by
    intro S S' h h' e1 e2 p hp
    have : p.1 ∈ S'.image Prod.fst := by
      rw [← e1]; exact Finset.mem_image.2 ⟨p, hp, rfl⟩
    obtain ⟨p', hp', he⟩ := Finset.mem_image.1 this
    have r1 := rankIn_pairs h.cheapest.1 h.uncrossed hp
    have r2 := rankIn_pairs h'.cheapest.1 h'.uncrossed hp'
    rw [e1, e2] at r1
    rw [he] at r2
    have : p.2 = p'.2 := rankIn_inj
      (by rw [← e2]; exact Finset.mem_image.2 ⟨p, hp, rfl⟩)
      (Finset.mem_image.2 ⟨p', hp', rfl⟩) (r1.symm.trans r2)
    rw [show p = p' from Prod.ext he.symm this]
    exact hp'
  exact Finset.Subset.antisymm (key h h' e1 e2) (key h' h e1.symm e2.symm)

/-! ## Exchanging the sets -/

theorem typesOf_swap (S : Finset (ℤ × ℤ)) : typesOf (S.image Prod.swap) = typesOf S := by
  rw [typesOf, typesOf, Finset.image_image, Finset.image_image, Finset.union_comm]
  rfl

theorem image_swap_swap (S : Finset (ℤ × ℤ)) : (S.image Prod.swap).image Prod.swap = S := by
  rw [Finset.image_image]
  simp

theorem cheapest_image_swap {A B : Finset ℤ} {S : Finset (ℤ × ℤ)} (h : Cheapest A B S) :
    Cheapest B A (S.image Prod.swap) := by
  obtain ⟨h1, h2⟩ := pairing_swap h.1
  refine ⟨h1, fun S' hS' => ?_⟩
  obtain ⟨h3, h4⟩ := pairing_swap hS'
  rw [h2, ← h4]
  exact h.2 _ h3

theorem preferred_swap {A B : Finset ℤ} {S : Finset (ℤ × ℤ)} (h : Preferred A B S) :
    Preferred B A (S.image Prod.swap) := by
  refine ⟨cheapest_image_swap h.cheapest, ?_, ?_⟩
  · intro p hp q hq hlt
    obtain ⟨p', hp', rfl⟩ := Finset.mem_image.1 hp
    obtain ⟨q', hq', rfl⟩ := Finset.mem_image.1 hq
    simp only [Prod.fst_swap, Prod.snd_swap] at hlt ⊢
    rcases lt_trichotomy p'.1 q'.1 with h1 | h1 | h1
    · exact h1
    · rw [h.cheapest.1.injLeft p' hp' q' hq' h1] at hlt; omega
    · have := h.uncrossed q' hq' p' hp' h1; omega
  · intro S' hS'
    rw [typesOf_swap, ← typesOf_swap S']
    exact h.first _ (cheapest_image_swap hS')

theorem bestPairs_swap (A B : Finset ℤ) (hd : _root_.Disjoint A B) :
    bestPairs B A = (bestPairs A B).image Prod.swap :=
  preferred_unique hd.symm (bestPairs_preferred B A hd.symm)
    (preferred_swap (bestPairs_preferred A B hd))

theorem additions_perm_swap (rt rt' : Runtime) (i : ℕ) (A B : Finset ℤ) (hd : _root_.Disjoint A B) :
    (addsOf rt' i B A).Perm ((addsOf rt i A B).map mirrorA) := by
  have e1 : (bestPairs B A).image Prod.fst = (bestPairs A B).image Prod.snd := by
    rw [bestPairs_swap A B hd, Finset.image_image]; rfl
  have e2 : (bestPairs B A).image Prod.snd = (bestPairs A B).image Prod.fst := by
    rw [bestPairs_swap A B hd, Finset.image_image]; rfl
  rw [addsOf, addsOf, e1, e2, List.map_append, List.map_map, List.map_map]
  have key : ∀ site site' (X : Finset ℤ), (rt'.order site X).Perm (rt.order site' X) :=
    fun site site' X => (rt'.order_perm site X).trans (rt.order_perm site' X).symm
  refine List.Perm.trans ?_ List.perm_append_comm
  refine List.Perm.append ?_ ?_
  · exact (key _ _ _).map _
  · exact (key _ _ _).map _

theorem substitutions_perm_swap (rt rt' : Runtime) (i : ℕ) (A B : Finset ℤ)
    (hd : _root_.Disjoint A B) :
    (subsOf rt' i B A).Perm ((subsOf rt i A B).map mirrorS) := by
  rw [subsOf, subsOf, List.map_map, bestPairs_swap A B hd]
  have hp : (rt'.orderP [3, i] ((bestPairs A B).image Prod.swap)).Perm
      ((rt.orderP [3, i] (bestPairs A B)).map Prod.swap) := by
    refine (List.perm_ext_iff_of_nodup (rt'.orderP_nodup _ _)
      ((rt.orderP_nodup _ _).map Prod.swap_injective)).2 (fun x => ?_)
    rw [rt'.orderP_mem, Finset.mem_image, List.mem_map]
    simp only [rt.orderP_mem]
  have := hp.map (fun p => Substitution.mk p.1 p.2)
  rw [List.map_map] at this
  exact this

end SegEval
