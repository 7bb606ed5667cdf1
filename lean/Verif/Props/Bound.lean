import Verif.Lemmas.Minimal
import Verif.Lemmas.Locality
import Verif.Props.Greedy

/-!
# C14: how far from minimal the reported edits can be
-/

namespace SegEval.Props

open SegEval Spec

/-- Every edit accounts for at most two boundaries. -/
theorem missed_le_twice {a b : BString} (hl : a.length = b.length) {nT : ℤ}
    (ts : List Transposition) (hg : ∀ u ∈ ts, Genuine a b nT u) (hd : Spec.Disjoint ts) :
    ∑ p ∈ Finset.range a.length, (missedAt a b p).card ≤ 2 * editsWith a b ts := by
  have h1 := sum_transposed a b nT _ hg hd
  have h2 := sum_transposed b a nT _ (fun t ht => genuine_comm hl (hg t ht)) hd
  rw [← hl] at h2
  have h3 : ∀ p, (missedAt a b p).card ≤
      2 * max (leftover a b ts p).card (leftover b a ts p).card +
      ((onlyIn a b p ∩ transposedAt ts p).card + (onlyIn b a p ∩ transposedAt ts p).card) := by
    intro p
    rw [missedAt, Finset.card_union_of_disjoint (SegEval.onlyIn_disjoint a b p),
      card_onlyIn_split a b ts p, card_onlyIn_split b a ts p]
    omega
  refine (Finset.sum_le_sum fun p _ => h3 p).trans ?_
  rw [Finset.sum_add_distrib, ← Finset.mul_sum, Finset.sum_add_distrib, h1, h2, editsWith]
  omega

theorem edits_subs_count (rt : Runtime) (a b : BString) (nT : ℤ) :
    (editsOf rt a b nT).substitutions.length = ∑ p ∈ Finset.range a.length,
      min (leftover a b (allT rt a b nT) p).card (leftover b a (allT rt a b nT) p).card := by
  simp only [editsOf, length_flatMap_range, subsOf_length]

/-- C14: the number of reported edits is less than twice that of any valid script (unless both are
0). -/
theorem C14_twice (rt : Runtime) (a b : BString) (hl : a.length = b.length) (nT : ℤ)
    (hs : SharedTypes rt a b) (e : Edits) (he : boundaryEditDistance rt a b nT = .ok e)
    (us : List Transposition) (hg : ∀ u ∈ us, Genuine a b nT u) (hd : Spec.Disjoint us) :
    let n := e.additions.length + e.substitutions.length + e.transpositions.length
    n < 2 * editsWith a b us ∨ (n = 0 ∧ editsWith a b us = 0) := by
  intro n
  have hm := missed_le_twice hl us hg hd
  rw [C06_edits_account rt a b hl nT hs e he] at hm
  by_cases h0 : e.substitutions.length + e.transpositions.length = 0
  · have hs0 : e.substitutions.length = 0 := by omega
    have ht0 : e.transpositions.length = 0 := by omega
    have hnil : us = [] := by
      by_contra hne
      obtain ⟨u, hu⟩ := List.exists_mem_of_ne_nil us hne
      have htn : e.transpositions = [] := List.eq_nil_of_length_eq_zero ht0
      rcases C65_complete rt a b hl nT hs e he u (hg u hu) (by simp [htn]) with ⟨v, hv, _⟩ | h
      · simp [htn] at hv
      · obtain ⟨g1, g2⟩ := h u.start (.inl rfl)
        have hlt : u.start < a.length := (hg u hu).ordered.trans (hg u hu).inRange
        have he' := bed_edits (le_of_eq hl) he
        rw [he', edits_subs_count] at hs0
        have := Finset.sum_eq_zero_iff.1 hs0 u.start (Finset.mem_range.2 hlt)
        have htn' : allT rt a b nT = [] := by rw [he'] at htn; exact htn
        rw [htn'] at this
        simp only [leftover, transposedAt_nil, Finset.sdiff_empty] at this
        have c1 := Finset.card_pos.2 (Finset.nonempty_iff_ne_empty.2 g1)
        have c2 := Finset.card_pos.2 (Finset.nonempty_iff_ne_empty.2 g2)
        omega
    have hc := C14_count_partial rt a b hl hs nT e he
    have htn : e.transpositions = [] := List.eq_nil_of_length_eq_zero ht0
    rw [htn] at hc
    rw [hnil]
    have : n = editsWith a b [] := by rw [← hc.1]; simp [n, ht0]
    omega
  · left; omega

/-- A valid script has at most twice as many transpositions as reported if the strings differ in one
type. -/
theorem transpositions_le_twice {rt : Runtime} {a b : BString} (hl : a.length = b.length) {nT : ℤ}
    (hs : SharedTypes rt a b) {t : ℤ} (h1 : OneType a b t) {e : Edits}
    (he : boundaryEditDistance rt a b nT = .ok e) {us : List Transposition}
    (hg : ∀ u ∈ us, Genuine a b nT u) (hd : Spec.Disjoint us) :
    us.length ≤ 2 * e.transpositions.length := by
  have hty : ∀ u ∈ us, u.type = t := by
    intro u hu
    rcases (hg u hu).moves with ⟨h, _⟩ | ⟨h, _⟩
    · simpa using h1 _ (Finset.mem_union_left _ h)
    · simpa using h1 _ (Finset.mem_union_right _ h)
  let P : Finset ℕ := (e.transpositions.map Transposition.start).toFinset ∪
    (e.transpositions.map Transposition.stop).toFinset
  have hP : P.card ≤ 2 * e.transpositions.length := by
    refine (Finset.card_union_le _ _).trans ?_
    have c1 := List.toFinset_card_le (e.transpositions.map Transposition.start)
    have c2 := List.toFinset_card_le (e.transpositions.map Transposition.stop)
    rw [List.length_map] at c1 c2
    omega
  have hin : ∀ v ∈ e.transpositions, ∀ p, Touches v p → p ∈ P := by
    intro v hv p hp
    rw [Finset.mem_union, List.mem_toFinset, List.mem_toFinset]
    rcases hp with rfl | rfl
    · exact .inl (List.mem_map_of_mem hv)
    · exact .inr (List.mem_map_of_mem hv)
  have hf : ∀ u ∈ us, ∃ p ∈ P, Touches u p := by
    intro u hu
    by_cases hm : u ∈ e.transpositions
    · exact ⟨u.start, hin u hm _ (.inl rfl), .inl rfl⟩
    · rcases C65_complete rt a b hl nT hs e he u (hg u hu) hm with ⟨v, hv, _, _, p, hp, hp'⟩ | h
      · exact ⟨p, hin v hv p hp', hp⟩
      · exfalso
        obtain ⟨g1, g2⟩ := h u.start (.inl rfl)
        obtain ⟨x, hx⟩ := Finset.nonempty_iff_ne_empty.2 g1
        obtain ⟨y, hy⟩ := Finset.nonempty_iff_ne_empty.2 g2
        have ex : x = t := by simpa using h1 _ (Finset.mem_union_left _ hx)
        have ey : y = t := by simpa using h1 _ (Finset.mem_union_right _ hy)
        rw [ex] at hx
        rw [ey] at hy
        exact Finset.disjoint_left.1 (SegEval.onlyIn_disjoint a b u.start) hx hy
  choose! f hf1 hf2 using hf
  have hnd : (us.map f).Nodup := by
    rw [List.Nodup, List.pairwise_map]
    refine List.Pairwise.imp_of_mem ?_ hd
    intro u v hu hv h heq
    exact h ((hty u hu).trans (hty v hv).symm) (f u) ⟨hf2 u hu, heq ▸ hf2 v hv⟩
  have : (us.map f).length ≤ P.card := by
    rw [← List.toFinset_card_of_nodup hnd]
    refine Finset.card_le_card fun p hp => ?_
    rw [List.mem_toFinset, List.mem_map] at hp
    obtain ⟨u, hu, rfl⟩ := hp
    exact hf1 u hu
  rw [List.length_map] at this
  omega

/-- C14: if the strings differ in one type only, the number of reported edits is at most 3/2 of that
of any valid script, for every window (`C14_not_minimal_window` reaches this bound). -/
theorem C14_three_halves (rt : Runtime) (a b : BString) (hl : a.length = b.length) (nT : ℤ)
    (hs : SharedTypes rt a b) (t : ℤ) (h1 : OneType a b t) (e : Edits)
    (he : boundaryEditDistance rt a b nT = .ok e) (us : List Transposition)
    (hg : ∀ u ∈ us, Genuine a b nT u) (hd : Spec.Disjoint us) :
    2 * (e.additions.length + e.substitutions.length + e.transpositions.length) ≤
      3 * editsWith a b us := by
  have hle := transpositions_le_twice hl hs h1 he hg hd
  rw [bed_edits (le_of_eq hl) he, edits_count]
  rw [bed_edits (le_of_eq hl) he] at hle
  change us.length ≤ 2 * (allT rt a b nT).length at hle
  have c1 := oneType_cost hl h1 us hg hd
  have c2 := oneType_cost hl h1 (allT rt a b nT) (allT_genuine rt a b nT)
    (allT_disjoint (le_of_eq hl) hs nT)
  have hm := missed_le_twice hl us hg hd
  omega

/-- The bound of `C14_three_halves` is reached: three edits instead of two. -/
example : boundaryEditDistance .ascending [{1}, {1}, ∅, ∅] [∅, ∅, {1}, {1}] 3 =
      .ok ⟨[⟨1, .a⟩, ⟨1, .b⟩], [], [⟨1, 2, 1⟩]⟩ ∧
    editsWith [{1}, {1}, ∅, ∅] [∅, ∅, {1}, {1}] [⟨0, 2, 1⟩, ⟨1, 3, 1⟩] = 2 := by decide +kernel

/-! ### A family of pairs that comes close to twice the minimum -/

/-- The types 1 to `m`. -/
def firstTypes (m : ℕ) : Finset ℤ := (Finset.range m).image (fun k : ℕ => (k : ℤ) + 1)

theorem mem_firstTypes {m : ℕ} {t : ℤ} : t ∈ firstTypes m ↔ 1 ≤ t ∧ t ≤ m := by
  simp only [firstTypes, Finset.mem_image, Finset.mem_range]
  constructor
  · rintro ⟨k, hk, rfl⟩; omega
  · intro h; exact ⟨(t - 1).toNat, by omega, by omega⟩

theorem card_firstTypes (m : ℕ) : (firstTypes m).card = m := by
  rw [firstTypes, Finset.card_image_of_injective _ (fun x y h => by simpa using h),
    Finset.card_range]

/-- `m` boundaries misplaced by one position, and a substitution at both positions. -/
def manyA (m : ℕ) : BString := [insert (-1) (firstTypes m), {-3}]

/-- See `manyA`. -/
def manyB (m : ℕ) : BString := [{-2}, insert (-4) (firstTypes m)]

/-- The transpositions that would have been best. -/
def manyT (m : ℕ) : List Transposition := (List.range m).map (fun k : ℕ => ⟨0, 1, (k : ℤ) + 1⟩)

theorem many_only (m : ℕ) :
    onlyIn (manyA m) (manyB m) 0 = insert (-1) (firstTypes m) ∧
    onlyIn (manyB m) (manyA m) 0 = {-2} ∧ onlyIn (manyA m) (manyB m) 1 = {-3} ∧
    onlyIn (manyB m) (manyA m) 1 = insert (-4) (firstTypes m) := by
  refine ⟨?_, ?_, ?_, ?_⟩ <;> ext t <;>
    simp only [onlyIn, typesAt, manyA, manyB, List.getElem?_cons_zero, List.getElem?_cons_succ,
      Option.getD_some, Finset.mem_sdiff, Finset.mem_insert, Finset.mem_singleton,
      mem_firstTypes] <;> omega

theorem many_only_beyond (m : ℕ) (p : ℕ) :
    onlyIn (manyA m) (manyB m) (p + 2) = ∅ ∧ onlyIn (manyB m) (manyA m) (p + 2) = ∅ := by
  simp [onlyIn, typesAt, manyA, manyB]

theorem many_genuine {m : ℕ} {t : Transposition} (h : Genuine (manyA m) (manyB m) 2 t) :
    t.start = 0 ∧ t.stop = 1 := by
  have h1 := h.ordered
  have h2 := h.inRange
  simp only [manyA, List.length_cons, List.length_nil] at h2
  omega

theorem many_transposed (m : ℕ) (p : ℕ) (hp : p < 2) : transposedAt (manyT m) p = firstTypes m := by
  ext d
  rw [mem_transposedAt, mem_firstTypes]
  constructor
  · rintro ⟨t, ht, _, rfl⟩
    simp only [manyT, List.mem_map, List.mem_range] at ht
    obtain ⟨k, hk, rfl⟩ := ht
    simp only
    omega
  · intro hd
    refine ⟨⟨0, 1, d⟩, ?_, ?_, rfl⟩
    · simp only [manyT, List.mem_map, List.mem_range]
      exact ⟨(d - 1).toNat, by omega, by simp only [Transposition.mk.injEq, true_and]; omega⟩
    · simp only [Touches]; omega

/-- C14: and no better bound holds for several types: for these pairs `2m + 2` edits are reported
although `m + 2` suffice (`m` up to 256, beyond which an assertion fails). -/
theorem C14_twice_reached (m : ℕ) (hm : m ≤ 256) :
    (∃ e, boundaryEditDistance .ascending (manyA m) (manyB m) 2 = .ok e ∧
      e.additions.length + e.substitutions.length + e.transpositions.length = 2 * m + 2) ∧
    (∀ u ∈ manyT m, Genuine (manyA m) (manyB m) 2 u) ∧ Spec.Disjoint (manyT m) ∧
    editsWith (manyA m) (manyB m) (manyT m) = m + 2 := by
  obtain ⟨o1, o2, o3, o4⟩ := many_only m
  have hl : (manyA m).length = (manyB m).length := rfl
  have hs : SharedTypes .ascending (manyA m) (manyB m) := fun _ _ _ => .inr fun _ => rfl
  have card1 : (insert (-1) (firstTypes m)).card = m + 1 := by
    rw [Finset.card_insert_of_notMem (by rw [mem_firstTypes]; omega), card_firstTypes]
  have card4 : (insert (-4) (firstTypes m)).card = m + 1 := by
    rw [Finset.card_insert_of_notMem (by rw [mem_firstTypes]; omega), card_firstTypes]
  have hnil : allT .ascending (manyA m) (manyB m) 2 = [] := by
    refine List.eq_nil_iff_forall_not_mem.2 fun t ht => ?_
    have hc := allT_chosen hl hs 2
    have hg := hc.genuine t ht
    obtain ⟨s0, s1⟩ := many_genuine hg
    have he : earlier (allT .ascending (manyA m) (manyB m) 2) t = [] := by
      refine List.eq_nil_iff_forall_not_mem.2 fun u hu => ?_
      obtain ⟨h1, h2⟩ := PartOf.mem_earlier.1 hu
      obtain ⟨r0, r1⟩ := many_genuine (hc.genuine u h1)
      rw [Earlier] at h2
      omega
    have := (allT_greedy (le_of_eq hl) hs hg).1 ht
    rw [he] at this
    apply this.2
    intro p hp
    rw [leftover, leftover, transposedAt_nil, Finset.sdiff_empty, Finset.sdiff_empty]
    rcases hp with rfl | rfl
    · rw [s0, o1, o2]; simp
    · rw [s1, o3, o4]; simp
  refine ⟨⟨editsOf .ascending (manyA m) (manyB m) 2, ?_, ?_⟩, ?_, ?_, ?_⟩
  · rw [bed_iff _ (le_of_eq hl)]
    refine ⟨fun p hp => ?_, rfl⟩
    rw [hnil]
    simp only [manyA, List.length_cons, List.length_nil] at hp
    rw [Balanced, leftover, leftover, transposedAt_nil, Finset.sdiff_empty, Finset.sdiff_empty]
    obtain rfl | rfl : p = 0 ∨ p = 1 := by omega
    · rw [o1, o2, card1, Finset.card_singleton]; omega
    · rw [o3, o4, card4, Finset.card_singleton]; omega
  · rw [edits_count, hnil, editsWith]
    simp only [show (manyA m).length = 2 from rfl, Finset.sum_range_succ, Finset.sum_range_zero,
      leftover, transposedAt_nil, Finset.sdiff_empty, o1, o2, o3, o4, card1, card4,
      Finset.card_singleton, List.length_nil]
    omega
  · intro u hu
    simp only [manyT, List.mem_map, List.mem_range] at hu
    obtain ⟨k, hk, rfl⟩ := hu
    refine ⟨by simp, by simp [manyA], by simp, .inl ?_⟩
    rw [o1, o4, Finset.mem_insert, Finset.mem_insert, mem_firstTypes]
    simp only
    omega
  · rw [Spec.Disjoint, manyT, List.pairwise_map]
    refine List.Pairwise.imp ?_ List.nodup_range
    intro x y hxy h
    simp only at h
    omega
  · rw [editsWith]
    simp only [show (manyA m).length = 2 from rfl, Finset.sum_range_succ, Finset.sum_range_zero,
      leftover, many_transposed m 0 (by omega), many_transposed m 1 (by omega), o1, o2, o3, o4]
    have e1 : insert (-1) (firstTypes m) \ firstTypes m = {-1} := by
      ext t; simp only [Finset.mem_sdiff, Finset.mem_insert, Finset.mem_singleton, mem_firstTypes]; omega
    have e2 : ({-2} : Finset ℤ) \ firstTypes m = {-2} := by
      ext t; simp only [Finset.mem_sdiff, Finset.mem_singleton, mem_firstTypes]; omega
    have e3 : ({-3} : Finset ℤ) \ firstTypes m = {-3} := by
      ext t; simp only [Finset.mem_sdiff, Finset.mem_singleton, mem_firstTypes]; omega
    have e4 : insert (-4) (firstTypes m) \ firstTypes m = {-4} := by
      ext t; simp only [Finset.mem_sdiff, Finset.mem_insert, Finset.mem_singleton, mem_firstTypes]; omega
    rw [e1, e2, e3, e4]
    simp [manyT]

example : boundaryEditDistance .ascending (manyA 3) (manyB 3) 2 =
    .ok ⟨[⟨1, .a⟩, ⟨2, .a⟩, ⟨3, .a⟩, ⟨1, .b⟩, ⟨2, .b⟩, ⟨3, .b⟩], [⟨-1, -2⟩, ⟨-3, -4⟩], []⟩ := by
  decide +kernel

end SegEval.Props
