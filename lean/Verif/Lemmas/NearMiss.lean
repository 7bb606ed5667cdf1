import Verif.Lemmas.Locality
import Verif.Spec.NearMiss

/-!
# Edits of a near miss
-/

namespace SegEval

open Spec

variable {a b a' : BString} {nT : ℤ} {p q : ℕ} {t : ℤ}

/-- The transposition of a near miss. -/
def missT (p q : ℕ) (t : ℤ) : Transposition := ⟨min p q, max p q, t⟩

theorem missT_touches {r : ℕ} : Touches (missT p q t) r ↔ r = p ∨ r = q := by
  simp only [Touches, missT]
  omega

theorem Spec.NearMiss.only_p (h : NearMiss a b nT p q t) : onlyIn a b p = ∅ ∧ onlyIn b a p = {t} := by
  constructor
  · rw [onlyIn, h.missing.1, Finset.sdiff_eq_empty_iff_subset]
    exact Finset.subset_insert _ _
  · rw [onlyIn, h.missing.1, Finset.insert_sdiff_of_notMem _ h.missing.2, Finset.sdiff_self]
    rfl

theorem Spec.NearMiss.only_q (h : NearMiss a b nT p q t) : onlyIn a b q = {t} ∧ onlyIn b a q = ∅ := by
  constructor
  · rw [onlyIn, h.placed.1, Finset.insert_sdiff_of_notMem _ h.placed.2, Finset.sdiff_self]
    rfl
  · rw [onlyIn, h.placed.1, Finset.sdiff_eq_empty_iff_subset]
    exact Finset.subset_insert _ _

theorem Spec.PutRight.only (h : PutRight a b p q a') {r : ℕ} (hp : r ≠ p) (hq : r ≠ q) :
    onlyIn a' b r = onlyIn a b r ∧ onlyIn b a' r = onlyIn b a r := by
  simp only [onlyIn, h.elsewhere r hp hq, and_self]

theorem Spec.PutRight.missed (h : PutRight a b p q a') {r : ℕ} (hr : r = p ∨ r = q) : missedAt a' b r = ∅ := by
  rcases hr with rfl | rfl
  · simp [missedAt, onlyIn, h.first]
  · simp [missedAt, onlyIn, h.second]

theorem Spec.PutRight.untouched (h : PutRight a b p q a') {u : Transposition} (hu : Genuine a' b nT u) {r : ℕ}
    (hr : Touches u r) : r ≠ p ∧ r ≠ q := by
  obtain ⟨m1, m2⟩ := moves_missed hu.moves
  constructor <;> rintro rfl <;> rcases hr with rfl | rfl
  · exact m1 (h.missed (.inl rfl))
  · exact m2 (h.missed (.inl rfl))
  · exact m1 (h.missed (.inr rfl))
  · exact m2 (h.missed (.inr rfl))

theorem Spec.PutRight.moves_iff (h : PutRight a b p q a') {u : Transposition}
    (hu : ∀ r, Touches u r → r ≠ p ∧ r ≠ q) : Moves a' b u ↔ Moves a b u := by
  obtain ⟨s1, s2⟩ := hu _ (.inl rfl)
  obtain ⟨e1, e2⟩ := hu _ (.inr rfl)
  rw [Moves, Moves, (h.only s1 s2).1, (h.only s1 s2).2, (h.only e1 e2).1, (h.only e1 e2).2]

theorem Spec.NearMiss.lengths (h : NearMiss a b nT p q t) (hl : a.length = b.length) : p < a.length ∧ q < a.length := by
  constructor <;> by_contra hc
  · have : t ∈ typesAt b p := by rw [h.missing.1]; exact Finset.mem_insert_self _ _
    rw [typesAt, List.getElem?_eq_none (by omega)] at this
    cases this
  · have : t ∈ typesAt a q := by rw [h.placed.1]; exact Finset.mem_insert_self _ _
    rw [typesAt, List.getElem?_eq_none (by omega)] at this
    cases this

theorem Spec.NearMiss.genuine (h : NearMiss a b nT p q t) (hl : a.length = b.length) :
    Genuine a b nT (missT p q t) := by
  have ha := h.apart
  have hn := h.near
  obtain ⟨l1, l2⟩ := h.lengths hl
  rw [abs_lt] at hn
  refine ⟨by simp only [missT]; omega, by simp only [missT]; omega, by simp only [missT]; omega, ?_⟩
  have m1 : t ∈ onlyIn b a p := by rw [h.only_p.2]; exact Finset.mem_singleton_self _
  have m2 : t ∈ onlyIn a b q := by rw [h.only_q.1]; exact Finset.mem_singleton_self _
  rcases lt_or_gt_of_ne ha with hlt | hlt
  · refine .inr ?_
    simp only [missT, min_eq_left hlt.le, max_eq_right hlt.le]
    exact ⟨m1, m2⟩
  · refine .inl ?_
    simp only [missT, min_eq_right hlt.le, max_eq_left hlt.le]
    exact ⟨m2, m1⟩

/-- A transposition at a near miss is that of the near miss. -/
theorem Spec.NearMiss.eq_of_touches (h : NearMiss a b nT p q t) {u : Transposition} (hu : Genuine a b nT u) {r : ℕ}
    (hr : Touches u r) (hpq : r = p ∨ r = q) : u = missT p q t := by
  obtain ⟨m1, m2⟩ := moves_missed hu.moves
  have ho := hu.ordered
  have hs := hu.span
  have at_p : ∀ x ∈ missedAt a b p, x = t := by
    intro x hx
    rw [missedAt, h.only_p.1, h.only_p.2, Finset.empty_union, Finset.mem_singleton] at hx
    exact hx
  have at_q : ∀ x ∈ missedAt a b q, x = t := by
    intro x hx
    rw [missedAt, h.only_q.1, h.only_q.2, Finset.union_empty, Finset.mem_singleton] at hx
    exact hx
  have hty : u.type ∈ missedAt a b u.start := by
    rcases hu.moves with hm | hm
    · exact Finset.mem_union_left _ hm.1
    · exact Finset.mem_union_right _ hm.1
  have other : (u.start = p ∨ u.start = q) ∧ (u.stop = p ∨ u.stop = q) := by
    rcases hr with hr | hr
    · refine ⟨by rw [hr]; exact hpq, ?_⟩
      by_contra hc
      rw [not_or] at hc
      refine m2 (h.alone _ hc.1 hc.2 ?_)
      rcases hpq with hpq | hpq
      · left; rw [abs_lt]; omega
      · right; rw [abs_lt]; omega
    · refine ⟨?_, by rw [hr]; exact hpq⟩
      by_contra hc
      rw [not_or] at hc
      refine m1 (h.alone _ hc.1 hc.2 ?_)
      rcases hpq with hpq | hpq
      · left; rw [abs_lt]; omega
      · right; rw [abs_lt]; omega
  have ht : u.type = t := by
    rcases other.1 with e | e
    · exact at_p _ (e ▸ hty)
    · exact at_q _ (e ▸ hty)
  obtain ⟨i, j, d⟩ := u
  simp only at other ht ho
  simp only [missT, Transposition.mk.injEq]
  refine ⟨by omega, by omega, ht⟩

theorem transposedAt_cons_of {ts : List Transposition} {u : Transposition} {r : ℕ} (h : ¬ Touches u r) :
    transposedAt (u :: ts) r = transposedAt ts r := by
  ext d
  simp only [mem_transposedAt, List.mem_cons, exists_eq_or_imp]
  tauto

theorem Spec.NearMiss.chosen (h : NearMiss a b nT p q t) (hc : PutRight a b p q a') (hl : a.length = b.length)
    {ts : List Transposition} (hts : Chosen a' b nT ts) : Chosen a b nT (missT p q t :: ts) := by
  have up : ∀ {u}, Genuine a' b nT u → Genuine a b nT u := fun {u} hu =>
    ⟨hu.ordered, hc.length ▸ hu.inRange, hu.span, (hc.moves_iff (fun r hr => hc.untouched hu hr)).1 hu.moves⟩
  have apart : ∀ u ∈ ts, ∀ r, Touches u r → r ≠ p ∧ r ≠ q := fun u hu r hr => hc.untouched (hts.genuine u hu) hr
  refine ⟨?_, ?_⟩
  · intro u hu
    rcases List.mem_cons.1 hu with rfl | hu
    · exact h.genuine hl
    · exact up (hts.genuine u hu)
  · intro u hu
    by_cases he : u = missT p q t
    · subst he
      refine iff_of_true List.mem_cons_self ⟨?_, ?_⟩
      · rintro v hv ⟨_, r, h1, h2⟩
        obtain ⟨hv, hvE⟩ := List.mem_filter.1 hv
        rcases List.mem_cons.1 hv with rfl | hv
        · simp [Earlier] at hvE
        · obtain ⟨n1, n2⟩ := apart v hv r h2
          rcases missT_touches.1 h1 with e | e
          · exact n1 e
          · exact n2 e
      · intro hs
        have := (hs p (missT_touches.2 (.inl rfl))).1
        rw [leftover, h.only_p.1, Finset.empty_sdiff] at this
        exact this rfl
    · have hno : ∀ r, Touches u r → r ≠ p ∧ r ≠ q := by
        intro r hr
        constructor
        · intro e; exact he (h.eq_of_touches hu hr (.inl e))
        · intro e; exact he (h.eq_of_touches hu hr (.inr e))
      have hg : Genuine a' b nT u :=
        ⟨hu.ordered, hc.length.symm ▸ hu.inRange, hu.span, (hc.moves_iff hno).2 hu.moves⟩
      have hnt : ∀ r, Touches u r → ¬ Touches (missT p q t) r := by
        intro r hr hm
        obtain ⟨n1, n2⟩ := hno r hr
        rcases missT_touches.1 hm with e | e
        · exact n1 e
        · exact n2 e
      have hlo : ∀ r, Touches u r →
          leftover a b (earlier (missT p q t :: ts) u) r = leftover a' b (earlier ts u) r ∧
          leftover b a (earlier (missT p q t :: ts) u) r = leftover b a' (earlier ts u) r := by
        intro r hr
        obtain ⟨n1, n2⟩ := hno r hr
        have e : transposedAt (earlier (missT p q t :: ts) u) r = transposedAt (earlier ts u) r := by
          unfold earlier
          rw [List.filter_cons]
          split
          · exact transposedAt_cons_of (hnt r hr)
          · rfl
        rw [leftover, leftover, leftover, leftover, e, (hc.only n1 n2).1, (hc.only n1 n2).2]
        exact ⟨rfl, rfl⟩
      have hsub : Substitutable a b (earlier (missT p q t :: ts) u) u ↔ Substitutable a' b (earlier ts u) u := by
        constructor <;> intro hs r hr <;> have := hs r hr <;> have e := hlo r hr
        · rwa [e.1, e.2] at this
        · rwa [e.1, e.2]
      have hcol : (∀ v ∈ earlier (missT p q t :: ts) u, ¬ Collide u v) ↔ ∀ v ∈ earlier ts u, ¬ Collide u v := by
        constructor
        · intro hh v hv
          refine hh v ?_
          obtain ⟨hv, hvE⟩ := List.mem_filter.1 hv
          exact List.mem_filter.2 ⟨List.mem_cons_of_mem _ hv, hvE⟩
        · intro hh v hv
          obtain ⟨hv, hvE⟩ := List.mem_filter.1 hv
          rcases List.mem_cons.1 hv with rfl | hv
          · rintro ⟨_, r, h1, h2⟩
            exact hnt r h1 h2
          · exact hh v (List.mem_filter.2 ⟨hv, hvE⟩)
      rw [List.mem_cons, hcol, hsub, ← hts.rule u hg]
      exact or_iff_right he

theorem Spec.PutRight.shared (hc : PutRight a b p q a') {rt : Runtime} (hs : SharedTypes rt a b) :
    SharedTypes rt a' b := by
  intro r d hd
  by_cases hr : r = p ∨ r = q
  · rw [hc.missed hr] at hd; simp at hd
  · rw [not_or] at hr
    rw [missedAt, (hc.only hr.1 hr.2).1, (hc.only hr.1 hr.2).2] at hd
    exact hs r d hd

variable {rt rt' : Runtime}

theorem Spec.NearMiss.transpositions (h : NearMiss a b nT p q t) (hc : PutRight a b p q a')
    (hl : a.length = b.length) (hs : SharedTypes rt a b) (hs' : SharedTypes rt' a' b) :
    (allT rt a b nT).Perm (missT p q t :: allT rt' a' b nT) := by
  have hl' := hc.length.trans hl
  have hch := allT_chosen hl' hs' nT
  refine (List.perm_ext_iff_of_nodup (disjoint_nodup (allT_disjoint (le_of_eq hl) hs nT)) ?_).2
    ((allT_chosen hl hs nT).mem_iff (h.chosen hc hl hch))
  refine List.nodup_cons.2 ⟨fun hm => ?_, disjoint_nodup (allT_disjoint (le_of_eq hl') hs' nT)⟩
  exact (hc.untouched (hch.genuine _ hm) (missT_touches.2 (.inl rfl))).1 rfl

theorem Spec.NearMiss.leftovers (h : NearMiss a b nT p q t) (hc : PutRight a b p q a') (hl : a.length = b.length)
    (hs : SharedTypes rt a b) (hs' : SharedTypes rt' a' b) (r : ℕ) :
    leftover a b (allT rt a b nT) r = leftover a' b (allT rt' a' b nT) r ∧
    leftover b a (allT rt a b nT) r = leftover b a' (allT rt' a' b nT) r := by
  have ht := transposedAt_perm (h.transpositions hc hl hs hs') r
  by_cases hr : r = p ∨ r = q
  · obtain ⟨e1, e2⟩ := leftover_empty_of_missed (hc.missed hr) (allT rt' a' b nT)
    rw [e1, e2]
    have hm : t ∈ transposedAt (missT p q t :: allT rt' a' b nT) r := by
      rw [mem_transposedAt]
      exact ⟨_, List.mem_cons_self, missT_touches.2 hr, rfl⟩
    rw [leftover, leftover, ht]
    have hsub : ∀ s : Finset ℤ, s = ∅ ∨ s = {t} → s \ transposedAt (missT p q t :: allT rt' a' b nT) r = ∅ := by
      rintro s (rfl | rfl)
      · exact Finset.empty_sdiff _
      · rw [Finset.sdiff_eq_empty_iff_subset, Finset.singleton_subset_iff]; exact hm
    rcases hr with rfl | rfl
    · exact ⟨hsub _ (.inl h.only_p.1), hsub _ (.inr h.only_p.2)⟩
    · exact ⟨hsub _ (.inr h.only_q.1), hsub _ (.inl h.only_q.2)⟩
  · have hr' := not_or.1 hr
    rw [transposedAt_cons_of (fun hh => hr (missT_touches.1 hh))] at ht
    rw [leftover, leftover, leftover, leftover, ht, (hc.only hr'.1 hr'.2).1, (hc.only hr'.1 hr'.2).2]
    exact ⟨rfl, rfl⟩

/-- The script of a near miss has its transposition and is otherwise that of the boundary put right. -/
theorem Spec.NearMiss.edits (h : NearMiss a b nT p q t) (hc : PutRight a b p q a') (hl : a.length = b.length)
    (hs : SharedTypes rt a b) (hs' : SharedTypes rt' a' b) :
    (editsOf rt a b nT).transpositions.Perm (missT p q t :: (editsOf rt' a' b nT).transpositions) ∧
    (editsOf rt a b nT).additions.Perm (editsOf rt' a' b nT).additions ∧
    (editsOf rt a b nT).substitutions.Perm (editsOf rt' a' b nT).substitutions := by
  refine ⟨h.transpositions hc hl hs hs', ?_, ?_⟩
  · simp only [editsOf]
    rw [hc.length]
    refine flatMap_perm _ fun r _ => ?_
    obtain ⟨l1, l2⟩ := h.leftovers hc hl hs hs' r
    rw [l1, l2]
    exact addsOf_perm' _ _ _ _ _ _
  · simp only [editsOf]
    rw [hc.length]
    refine flatMap_perm _ fun r _ => ?_
    obtain ⟨l1, l2⟩ := h.leftovers hc hl hs hs' r
    rw [l1, l2]
    exact subsOf_perm' _ _ _ _ _ _

theorem Spec.NearMiss.matchCount (h : NearMiss a b nT p q t) (hc : PutRight a b p q a') (hl : a.length = b.length) :
    matchCount a' b = matchCount a b + 1 := by
  unfold Spec.matchCount
  rw [hc.length]
  have e : ∀ r ∈ Finset.range a.length, (typesAt a' r ∩ typesAt b r).card =
      (typesAt a r ∩ typesAt b r).card + if r = p then 1 else 0 := by
    intro r _
    by_cases hp : r = p
    · subst hp
      rw [if_pos rfl, hc.first, Finset.inter_self, h.missing.1, Finset.inter_eq_left.2 (Finset.subset_insert _ _),
        Finset.card_insert_of_notMem h.missing.2]
    · rw [if_neg hp, add_zero]
      by_cases hq : r = q
      · subst hq
        rw [hc.second, Finset.inter_self, h.placed.1, Finset.inter_eq_right.2 (Finset.subset_insert _ _)]
      · rw [hc.elsewhere r hp hq]
  rw [Finset.sum_congr rfl e, Finset.sum_add_distrib, Finset.sum_ite_eq' , if_pos (Finset.mem_range.2 (h.lengths hl).1)]

theorem Spec.NearMiss.sameTypes (h : NearMiss a b nT p q t) (hc : PutRight a b p q a') : SameTypes a b a' b := by
  intro d
  constructor
  · rintro ⟨r, hr | hr⟩
    · by_cases hp : r = p
      · subst hp; exact ⟨r, .inr (by rw [h.missing.1]; exact Finset.mem_insert_of_mem hr)⟩
      · by_cases hq : r = q
        · subst hq
          rw [h.placed.1, Finset.mem_insert] at hr
          rcases hr with rfl | hr
          · exact ⟨p, .inr (by rw [h.missing.1]; exact Finset.mem_insert_self _ _)⟩
          · exact ⟨r, .inr hr⟩
        · exact ⟨r, .inl (by rw [hc.elsewhere r hp hq]; exact hr)⟩
    · exact ⟨r, .inr hr⟩
  · rintro ⟨r, hr | hr⟩
    · by_cases hp : r = p
      · subst hp; exact ⟨r, .inr (hc.first ▸ hr)⟩
      · by_cases hq : r = q
        · subst hq; exact ⟨r, .inr (hc.second ▸ hr)⟩
        · exact ⟨r, .inl (hc.elsewhere r hp hq ▸ hr)⟩
    · exact ⟨r, .inr hr⟩

end SegEval
