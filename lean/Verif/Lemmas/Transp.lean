import Verif.Lemmas.Pairing
import Mathlib.Algebra.BigOperators.Intervals

namespace SegEval

open Spec

/-! ## Which candidates are accepted -/

theorem mem_leftover {a b : BString} {ts : List Transposition} {p : ℕ} {d : ℤ} :
    d ∈ leftover a b ts p ↔ d ∈ onlyIn a b p ∧ d ∉ transposedAt ts p := by
  rw [leftover, Finset.mem_sdiff]

theorem leftover_disjoint (a b : BString) (ts : List Transposition) (p : ℕ) :
    _root_.Disjoint (leftover a b ts p) (leftover b a ts p) :=
  Finset.disjoint_of_subset_left Finset.sdiff_subset
    (Finset.disjoint_of_subset_right Finset.sdiff_subset (onlyIn_disjoint a b p))

theorem missed_sdiff (a b : BString) (ts : List Transposition) (p : ℕ) :
    missedAt a b p \ transposedAt ts p = leftover a b ts p ∪ leftover b a ts p := by
  rw [missedAt, Finset.union_sdiff_distrib, leftover, leftover]

/-- At both positions there are boundaries left in both strings. -/
def Blocked (a b : BString) (ts : List Transposition) (i j : ℕ) : Prop :=
  (leftover a b ts i ≠ ∅ ∧ leftover b a ts i ≠ ∅) ∧
  (leftover a b ts j ≠ ∅ ∧ leftover b a ts j ≠ ∅)

instance (a b : BString) (ts : List Transposition) (i j : ℕ) : Decidable (Blocked a b ts i j) := by
  unfold Blocked; infer_instance

theorem subst_pos_iff {A B : Finset ℤ} (h : _root_.Disjoint A B) :
    0 < (additionsSubstitutions (A ∪ B) A B).2 ↔ A ≠ ∅ ∧ B ≠ ∅ := by
  have hc : (A ∪ B).card = A.card + B.card := Finset.card_union_of_disjoint h
  simp only [additionsSubstitutions, hc]
  rw [← Finset.nonempty_iff_ne_empty, ← Finset.nonempty_iff_ne_empty, ← Finset.card_pos,
    ← Finset.card_pos]
  rw [div_pos_iff_of_pos_right (by norm_num), sub_pos]
  have : ((|(A.card : ℤ) - (B.card : ℤ)| : ℤ) : ℚ) < (((A.card + B.card : ℕ) : ℤ) : ℚ) ↔
      0 < A.card ∧ 0 < B.card := by
    rw [Int.cast_lt]
    constructor
    · intro h
      rw [abs_lt] at h
      push_cast at h
      omega
    · rintro ⟨h1, h2⟩
      rw [abs_lt]
      push_cast
      omega
  exact_mod_cast this

theorem sameType_shared {rt : Runtime} {d : ℤ} (h : smallInt d = true ∨ ∀ site, rt.sameObj site d = true)
    (site : List ℕ) (t : Transposition) : sameType rt site t d = decide (t.type = d) := by
  unfold sameType
  rcases h with h | h <;> simp [h]

theorem overlaps_shared {rt : Runtime} {a b : BString} {i j : ℕ} {d : ℤ} {ts : List Transposition}
    (h : smallInt d = true ∨ ∀ site, rt.sameObj site d = true) :
    overlapsExisting rt i j d (stateOf a b ts).optionsTransp = false ↔
      d ∉ transposedAt ts i ∧ d ∉ transposedAt ts j := by
  have key : ∀ p : ℕ, ((stateOf a b ts).optionsTransp p).any
      (fun t => sameType rt [i, j, t.start, t.stop] t d) = false ↔ d ∉ transposedAt ts p := by
    intro p
    rw [mem_transposedAt, List.any_eq_false]
    simp only [stateOf, List.mem_filter, decide_eq_true_eq, sameType_shared h]
    constructor
    · rintro h1 ⟨t, h2, h3, h4⟩; exact h1 t ⟨h2, h3⟩ h4
    · rintro h1 t ⟨h2, h3⟩ h4; exact h1 ⟨t, h2, h3, h4⟩
  rw [overlapsExisting, Bool.or_eq_false_iff, key, key]

theorem hasSubs_iff {a b : BString} (h : a.length ≤ b.length) {i j : ℕ} {d : ℤ}
    {ts : List Transposition} (hij : i < j) (hj : j < a.length) (hd : d ∈ candidates a b i j)
    (h1 : d ∉ transposedAt ts i) (h2 : d ∉ transposedAt ts j) :
    hasSubstitutions i j d (stateOf a b ts).options = true ↔ Blocked a b ts i j := by
  have hdi := candidates_missed_left hd
  have hdj := candidates_missed_right hd
  unfold hasSubstitutions
  rw [options_stateOf a b h ts i (by omega) (ne_empty_of_mem' hdi),
    options_stateOf a b h ts j hj (ne_empty_of_mem' hdj)]
  simp only [Finset.mem_sdiff, hdi, hdj, h1, h2, not_false_eq_true, and_self, if_true,
    Bool.and_eq_true, decide_eq_true_eq]
  rw [missed_sdiff, missed_sdiff, subst_pos_iff (leftover_disjoint a b ts i),
    subst_pos_iff (leftover_disjoint a b ts j)]
  exact Iff.rfl

theorem accepts_shared {rt : Runtime} {a b : BString} (h : a.length ≤ b.length) {i j : ℕ} {d : ℤ}
    {ts : List Transposition} (hij : i < j) (hj : j < a.length) (hd : d ∈ candidates a b i j)
    (hs : SharedTypes rt a b) :
    accepts rt a b i j ts d = true ↔
      (d ∉ transposedAt ts i ∧ d ∉ transposedAt ts j) ∧ ¬ Blocked a b ts i j := by
  rw [accepts_iff, overlaps_shared (hs i d (candidates_missed_left hd))]
  constructor
  · rintro ⟨h1, h2⟩
    refine ⟨h1, fun hb => ?_⟩
    rw [(hasSubs_iff h hij hj hd h1.1 h1.2).2 hb] at h2
    cases h2
  · rintro ⟨h1, h2⟩
    refine ⟨h1, ?_⟩
    by_contra hc
    rw [Bool.not_eq_false] at hc
    exact h2 ((hasSubs_iff h hij hj hd h1.1 h1.2).1 hc)

/-! ## Running through a pair of positions -/

/-- What one pair of positions adds. -/
def newT (a b : BString) (i j : ℕ) (ts : List Transposition) (ds : List ℤ) : List Transposition :=
  if Blocked a b ts i j then []
  else (ds.filter (fun d => decide (d ∉ transposedAt ts i ∧ d ∉ transposedAt ts j))).map
    (fun d => ⟨i, j, d⟩)

theorem leftover_mono (a b : BString) (ts us : List Transposition) (p : ℕ) :
    leftover a b (ts ++ us) p ⊆ leftover a b ts p := by
  intro x hx
  rw [mem_leftover, transposedAt_append] at hx
  rw [mem_leftover]
  exact ⟨hx.1, fun h => hx.2 (Finset.mem_union_left _ h)⟩

theorem not_blocked_mono {a b : BString} {ts us : List Transposition} {i j : ℕ}
    (h : ¬ Blocked a b ts i j) : ¬ Blocked a b (ts ++ us) i j := by
  intro hb
  refine h ?_
  have mono : ∀ a b : BString, ∀ p, leftover a b (ts ++ us) p ≠ ∅ → leftover a b ts p ≠ ∅ := by
    intro a b p h1 h2
    exact h1 (Finset.subset_empty.1 (h2 ▸ leftover_mono a b ts us p))
  exact ⟨⟨mono _ _ _ hb.1.1, mono _ _ _ hb.1.2⟩, mono _ _ _ hb.2.1, mono _ _ _ hb.2.2⟩

theorem foldl_stepT {rt : Runtime} {a b : BString} (h : a.length ≤ b.length) {i j : ℕ}
    (hij : i < j) (hj : j < a.length) (hs : SharedTypes rt a b) (ds : List ℤ)
    (hds : ∀ d ∈ ds, d ∈ candidates a b i j) (hn : ds.Nodup) (ts : List Transposition) :
    ds.foldl (stepT rt a b i j) ts = ts ++ newT a b i j ts ds := by
  induction ds generalizing ts with
  | nil => simp [newT]
  | cons d ds ih =>
    have hd : d ∈ candidates a b i j := hds d (by simp)
    have hds' : ∀ d ∈ ds, d ∈ candidates a b i j := fun x hx => hds x (by simp [hx])
    rw [List.nodup_cons] at hn
    rw [List.foldl_cons, ih hds' hn.2]
    have hacc := accepts_shared (ts := ts) h hij hj hd hs
    by_cases hb : Blocked a b ts i j
    · have : stepT rt a b i j ts d = ts := by
        rw [stepT, if_neg (fun hc => (hacc.1 hc).2 hb)]
      rw [this]; simp [newT, hb]
    · by_cases hf : d ∉ transposedAt ts i ∧ d ∉ transposedAt ts j
      · have : stepT rt a b i j ts d = ts ++ [⟨i, j, d⟩] := by
          rw [stepT, if_pos (hacc.2 ⟨hf, hb⟩)]
        rw [this]
        have hb' : ¬ Blocked a b (ts ++ [⟨i, j, d⟩]) i j := not_blocked_mono hb
        simp only [newT, if_neg hb', if_neg hb, List.append_assoc, List.singleton_append]
        rw [List.filter_cons_of_pos (by simpa using hf), List.map_cons]
        congr 2
        congr 1
        apply List.filter_congr
        intro x hx
        have hxd : x ≠ d := by rintro rfl; exact hn.1 hx
        simp [transposedAt_append, transposedAt_singleton, Touches, hxd]
      · have : stepT rt a b i j ts d = ts := by
          rw [stepT, if_neg (fun hc => hf (hacc.1 hc).1)]
        rw [this]
        simp only [newT, if_neg hb]
        rw [List.filter_cons_of_neg (by simpa using hf)]

theorem posT_eq {rt : Runtime} {a b : BString} (h : a.length ≤ b.length) {span i : ℕ}
    (hspan : 0 < span) (hi : i + span < a.length) (hs : SharedTypes rt a b)
    (ts : List Transposition) :
    posT rt a b span ts i =
      ts ++ newT a b i (i + span) ts (rt.order [0, span, i] (candidates a b i (i + span))) :=
  foldl_stepT h (by omega) hi hs _ (fun _ hd => (rt.mem_order _ _ _).1 hd) (rt.order_nodup _ _) ts

theorem mem_spans {nT : ℤ} {span : ℕ} : span ∈ spans nT ↔ 0 < span ∧ (span : ℤ) < nT := by
  simp only [spans, List.mem_map, List.mem_range]
  constructor
  · rintro ⟨k, hk, rfl⟩; push_cast; omega
  · rintro ⟨h1, h2⟩; exact ⟨span - 1, by omega, by omega⟩

/-- Any property kept by every acceptance is kept by running through some spans. -/
theorem spansT_inv {rt : Runtime} {a b : BString} {nT : ℤ} (P : List Transposition → Prop)
    (ss : List ℕ) (hss : ∀ s ∈ ss, s ∈ spans nT) (ts0 : List Transposition) (h0 : P ts0)
    (hP : ∀ ts i j d, P ts → i < j → j < a.length → ((j : ℤ) - i) < nT → d ∈ candidates a b i j →
      accepts rt a b i j ts d = true → P (ts ++ [⟨i, j, d⟩])) :
    P (ss.foldl (spanT rt a b) ts0) := by
  refine foldl_inv P _ _ (fun ts span hspan hts => ?_) ts0 h0
  refine foldl_inv P _ _ (fun ts i hi hts => ?_) ts hts
  refine foldl_inv P _ _ (fun ts d hd hts => ?_) ts hts
  have hspan' := mem_spans.1 (hss span hspan)
  rw [List.mem_range] at hi
  by_cases hacc : accepts rt a b i (i + span) ts d = true
  · rw [stepT, if_pos hacc]
    refine hP ts i (i + span) d hts (by omega) (by omega) (by push_cast; omega)
      ((rt.mem_order _ _ _).1 hd) hacc
  · rw [stepT, if_neg hacc]; exact hts

/-- Any property kept by every acceptance holds of the result of the search. -/
theorem allT_inv {rt : Runtime} {a b : BString} {nT : ℤ} (P : List Transposition → Prop)
    (h0 : P [])
    (hP : ∀ ts i j d, P ts → i < j → j < a.length → ((j : ℤ) - i) < nT → d ∈ candidates a b i j →
      accepts rt a b i j ts d = true → P (ts ++ [⟨i, j, d⟩])) :
    P (allT rt a b nT) :=
  spansT_inv P _ (fun _ h => h) [] h0 hP

theorem spans_prefix {m n : ℤ} (h : m ≤ n) : ∃ rest, spans n = spans m ++ rest := by
  refine ⟨((List.range ((n - 1).toNat - (m - 1).toNat)).map (fun k => (m - 1).toNat + k)).map (· + 1), ?_⟩
  have : (n - 1).toNat = (m - 1).toNat + ((n - 1).toNat - (m - 1).toNat) := by omega
  rw [spans, spans, ← List.map_append, ← List.range_add, ← this]

theorem allT_genuine (rt : Runtime) (a b : BString) (nT : ℤ) :
    ∀ t ∈ allT rt a b nT, Genuine a b nT t := by
  refine allT_inv (P := fun ts => ∀ t ∈ ts, Genuine a b nT t) (by simp) ?_
  intro ts i j d hts hij hj hspan hd _ t ht
  rcases List.mem_append.1 ht with ht | ht
  · exact hts t ht
  · rw [List.mem_singleton] at ht
    subst ht
    exact ⟨hij, hj, hspan, mem_candidates.1 hd⟩

theorem allT_disjoint {rt : Runtime} {a b : BString} (h : a.length ≤ b.length)
    (hs : SharedTypes rt a b) (nT : ℤ) : Spec.Disjoint (allT rt a b nT) := by
  refine allT_inv (P := Spec.Disjoint) List.Pairwise.nil ?_
  intro ts i j d hts hij hj hspan hd hacc
  have hf := ((accepts_shared h hij hj hd hs).1 hacc).1
  refine List.pairwise_append.2 ⟨hts, List.pairwise_singleton _ _, ?_⟩
  intro t ht u hu htype p hp
  rw [List.mem_singleton] at hu
  subst hu
  rcases hp.2 with h2 | h2
  · exact hf.1 (mem_transposedAt.2 ⟨t, ht, by simp only at h2; rw [h2]; exact hp.1, htype⟩)
  · exact hf.2 (mem_transposedAt.2 ⟨t, ht, by simp only at h2; rw [h2]; exact hp.1, htype⟩)

/-- A later transposition that shares a position with an earlier one of its type has a type that is
not a cached int and was compared as a separate object. -/
theorem allT_overlap (rt : Runtime) (a b : BString) (nT : ℤ) :
    (allT rt a b nT).Pairwise (fun t u => t.type = u.type → ∀ p, Touches t p → Touches u p →
      smallInt u.type = false ∧ rt.sameObj [u.start, u.stop, t.start, t.stop] u.type = false) := by
  refine allT_inv (P := fun ts => ts.Pairwise _) List.Pairwise.nil ?_
  intro ts i j d hts _ _ _ _ hacc
  have ho := ((accepts_iff rt a b i j ts d).1 hacc).1
  rw [overlapsExisting, Bool.or_eq_false_iff, List.any_eq_false, List.any_eq_false] at ho
  refine List.pairwise_append.2 ⟨hts, List.pairwise_singleton _ _, ?_⟩
  intro t ht u hu htype p hp hq
  rw [List.mem_singleton] at hu
  subst hu
  have key : ¬ sameType rt [i, j, t.start, t.stop] t d = true := by
    rcases hq with rfl | rfl
    · exact ho.1 t (by simpa [stateOf] using ⟨ht, hp⟩)
    · exact ho.2 t (by simpa [stateOf] using ⟨ht, hp⟩)
  simp only at htype
  simpa [sameType, htype] using key

theorem disjoint_nodup {ts : List Transposition} (h : Spec.Disjoint ts) : ts.Nodup := by
  refine List.Pairwise.imp ?_ h
  rintro t u htu rfl
  exact htu rfl t.start ⟨Or.inl rfl, Or.inl rfl⟩

/-! ## Counting -/

theorem transposedAt_cons (t : Transposition) (ts : List Transposition) (p : ℕ) :
    transposedAt (t :: ts) p = (if Touches t p then {t.type} else ∅) ∪ transposedAt ts p := by
  rw [← transposedAt_singleton]; exact transposedAt_append [t] ts p

/-- Type by type, the transpositions of a type are as many as the boundaries of the first string
they account for. -/
theorem count_transposed (a b : BString) (nT : ℤ) (ts : List Transposition)
    (hg : ∀ t ∈ ts, Genuine a b nT t) (hd : Spec.Disjoint ts) (d : ℤ) :
    ((Finset.range a.length).filter (fun p => d ∈ onlyIn a b p ∧ d ∈ transposedAt ts p)).card =
      ts.countP (fun t => decide (t.type = d)) := by
  induction ts with
  | nil => simp [transposedAt_nil]
  | cons t ts ih =>
    have hg' : ∀ t ∈ ts, Genuine a b nT t := fun u hu => hg u (by simp [hu])
    obtain ⟨hd1, hd2⟩ := List.pairwise_cons.1 hd
    have ih' := ih hg' hd2
    have hgt := hg t (by simp)
    by_cases ht : t.type = d
    · rw [List.countP_cons_of_pos (by simpa using ht), ← ih']
      obtain ⟨e, he1, he2, he3, he4⟩ : ∃ e, Touches t e ∧ e < a.length ∧ d ∈ onlyIn a b e ∧
          ∀ p, Touches t p → d ∈ onlyIn a b p → p = e := by
        have h1 := hgt.ordered
        have h2 := hgt.inRange
        rcases hgt.moves with ⟨m1, m2⟩ | ⟨m1, m2⟩
        · refine ⟨t.start, Or.inl rfl, by omega, ht ▸ m1, ?_⟩
          rintro p (rfl | rfl) hp
          · rfl
          · rw [ht] at m2; exact absurd (mem_onlyIn.1 hp).1 (mem_onlyIn.1 m2).2
        · refine ⟨t.stop, Or.inr rfl, by omega, ht ▸ m2, ?_⟩
          rintro p (rfl | rfl) hp
          · rw [ht] at m1; exact absurd (mem_onlyIn.1 hp).1 (mem_onlyIn.1 m1).2
          · rfl
      have hnot : d ∉ transposedAt ts e := by
        intro hc
        obtain ⟨u, hu, hue, hut⟩ := mem_transposedAt.1 hc
        exact hd1 u hu (by rw [ht, hut]) e ⟨he1, hue⟩
      have : (Finset.range a.length).filter
            (fun p => d ∈ onlyIn a b p ∧ d ∈ transposedAt (t :: ts) p) =
          insert e ((Finset.range a.length).filter
            (fun p => d ∈ onlyIn a b p ∧ d ∈ transposedAt ts p)) := by
        ext p
        simp only [Finset.mem_filter, Finset.mem_range, Finset.mem_insert, transposedAt_cons,
          Finset.mem_union]
        constructor
        · rintro ⟨h1, h2, h3 | h3⟩
          · split at h3
            · rename_i htp; exact Or.inl (he4 p htp h2)
            · simp at h3
          · exact Or.inr ⟨h1, h2, h3⟩
        · rintro (rfl | ⟨h1, h2, h3⟩)
          · refine ⟨he2, he3, Or.inl ?_⟩
            rw [if_pos he1, ht]; simp
          · exact ⟨h1, h2, Or.inr h3⟩
      rw [this, Finset.card_insert_of_notMem]
      simp [hnot]
    · rw [List.countP_cons_of_neg (by simpa using ht), ← ih']
      congr 1
      apply Finset.filter_congr
      intro p _
      rw [transposedAt_cons, Finset.mem_union]
      have : d ∉ (if Touches t p then ({t.type} : Finset ℤ) else ∅) := by
        split
        · simpa using fun h => ht h.symm
        · simp
      simp [this]

theorem moves_comm {a b : BString} {t : Transposition} : Moves a b t ↔ Moves b a t := by
  unfold Moves; exact or_comm

theorem genuine_comm {a b : BString} (h : a.length = b.length) {nT : ℤ} {t : Transposition}
    (hg : Genuine a b nT t) : Genuine b a nT t :=
  ⟨hg.ordered, h ▸ hg.inRange, hg.span, moves_comm.1 hg.moves⟩

/-- Summed over the types, the boundaries of the first string accounted for by transpositions are
as many as the transpositions. -/
theorem sum_transposed (a b : BString) (nT : ℤ) (ts : List Transposition)
    (hg : ∀ t ∈ ts, Genuine a b nT t) (hd : Spec.Disjoint ts) :
    ∑ p ∈ Finset.range a.length, (onlyIn a b p ∩ transposedAt ts p).card = ts.length := by
  induction ts with
  | nil => simp [transposedAt_nil]
  | cons t ts ih =>
    have hg' : ∀ t ∈ ts, Genuine a b nT t := fun u hu => hg u (by simp [hu])
    obtain ⟨hd1, hd2⟩ := List.pairwise_cons.1 hd
    rw [List.length_cons, ← ih hg' hd2]
    have hgt := hg t (by simp)
    obtain ⟨e, he1, he2, he3, he4⟩ : ∃ e, Touches t e ∧ e < a.length ∧ t.type ∈ onlyIn a b e ∧
        ∀ p, Touches t p → t.type ∈ onlyIn a b p → p = e := by
      have h1 := hgt.ordered
      have h2 := hgt.inRange
      rcases hgt.moves with ⟨m1, m2⟩ | ⟨m1, m2⟩
      · refine ⟨t.start, Or.inl rfl, by omega, m1, ?_⟩
        rintro p (rfl | rfl) hp
        · rfl
        · exact absurd (mem_onlyIn.1 hp).1 (mem_onlyIn.1 m2).2
      · refine ⟨t.stop, Or.inr rfl, by omega, m2, ?_⟩
        rintro p (rfl | rfl) hp
        · exact absurd (mem_onlyIn.1 hp).1 (mem_onlyIn.1 m1).2
        · rfl
    have hnot : t.type ∉ transposedAt ts e := by
      intro hc
      obtain ⟨u, hu, hue, hut⟩ := mem_transposedAt.1 hc
      exact hd1 u hu hut.symm e ⟨he1, hue⟩
    have hother : ∀ p, p ≠ e → onlyIn a b p ∩ transposedAt (t :: ts) p =
        onlyIn a b p ∩ transposedAt ts p := by
      intro p hp
      ext d
      simp only [Finset.mem_inter, transposedAt_cons, Finset.mem_union]
      constructor
      · rintro ⟨h1, h2 | h2⟩
        · split at h2
          · rename_i htp
            rw [Finset.mem_singleton] at h2
            exact absurd (he4 p htp (h2 ▸ h1)) hp
          · simp at h2
        · exact ⟨h1, h2⟩
      · rintro ⟨h1, h2⟩; exact ⟨h1, Or.inr h2⟩
    have hself : (onlyIn a b e ∩ transposedAt (t :: ts) e).card =
        (onlyIn a b e ∩ transposedAt ts e).card + 1 := by
      have : onlyIn a b e ∩ transposedAt (t :: ts) e =
          insert t.type (onlyIn a b e ∩ transposedAt ts e) := by
        ext d
        simp only [Finset.mem_inter, transposedAt_cons, Finset.mem_union,
          if_pos he1, Finset.mem_singleton, Finset.mem_insert]
        constructor
        · rintro ⟨h1, h2 | h2⟩
          · exact Or.inl h2
          · exact Or.inr ⟨h1, h2⟩
        · rintro (rfl | ⟨h1, h2⟩)
          · exact ⟨he3, Or.inl rfl⟩
          · exact ⟨h1, Or.inr h2⟩
      rw [this, Finset.card_insert_of_notMem]
      simp [hnot]
    have hmem : e ∈ Finset.range a.length := Finset.mem_range.2 he2
    rw [← Finset.add_sum_erase _ _ hmem, ← Finset.add_sum_erase (a := e) _ _ hmem, hself]
    have : ∑ p ∈ (Finset.range a.length).erase e, (onlyIn a b p ∩ transposedAt (t :: ts) p).card =
        ∑ p ∈ (Finset.range a.length).erase e, (onlyIn a b p ∩ transposedAt ts p).card :=
      Finset.sum_congr rfl (fun p hp => by rw [hother p (Finset.ne_of_mem_erase hp)])
    rw [this]; omega

theorem card_onlyIn_split (a b : BString) (ts : List Transposition) (p : ℕ) :
    (onlyIn a b p).card = (leftover a b ts p).card + (onlyIn a b p ∩ transposedAt ts p).card := by
  rw [leftover, Finset.card_sdiff_add_card_inter]

end SegEval
