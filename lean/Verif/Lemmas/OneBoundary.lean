import Verif.Spec.OneBoundary
import Verif.Lemmas.Wider
import Verif.Lemmas.Greedy
import Mathlib.Tactic.Linarith
import Mathlib.Tactic.FieldSimp

/-!
# The choice of transpositions, with one boundary more

The search goes through the pairs of positions by increasing span and takes a pair whenever both ends
are still free.  With one more free end at the start the two searches always differ in one free end, first
in one, after taking a pair with it in the other direction.  So they take equally many pairs or one
more, and because the spans increase along the way the sums of spans differ by one span at most.
-/

namespace SegEval

open SegEval.Spec

namespace Chain

abbrev Ends := Finset (ℕ × ℤ)

def fits (side : ℕ × ℤ → Bool) (F : Ends) (t : Transposition) : Prop :=
  (t.start, t.type) ∈ F ∧ (t.stop, t.type) ∈ F ∧ side (t.start, t.type) ≠ side (t.stop, t.type)

instance (side : ℕ × ℤ → Bool) (F : Ends) (t : Transposition) : Decidable (fits side F t) := by
  unfold fits; infer_instance

def without (F : Ends) (t : Transposition) : Ends := (F.erase (t.start, t.type)).erase (t.stop, t.type)

def pick (side : ℕ × ℤ → Bool) : List Transposition → Ends → List Transposition
  | [], _ => []
  | t :: ts, F => if fits side F t then t :: pick side ts (without F t) else pick side ts F

theorem mem_without {F : Ends} {t : Transposition} {x : ℕ × ℤ} :
    x ∈ without F t ↔ x ≠ (t.stop, t.type) ∧ x ≠ (t.start, t.type) ∧ x ∈ F := by
  simp [without]

theorem pick_sub (side : ℕ × ℤ → Bool) : ∀ (es : List Transposition) (F : Ends), (pick side es F).Sublist es
  | [], _ => .slnil
  | t :: ts, F => by
    rw [pick]
    split
    · exact (pick_sub side ts _).cons_cons t
    · exact (pick_sub side ts F).cons t

theorem pick_fits (side : ℕ × ℤ → Bool) : ∀ (es : List Transposition) (F : Ends),
    ∀ t ∈ pick side es F, fits side F t
  | [], _, t, h => by simp [pick] at h
  | x :: xs, F, t, h => by
    rw [pick] at h
    split at h
    · rcases List.mem_cons.1 h with rfl | h
      · assumption
      · obtain ⟨h1, h2, h3⟩ := pick_fits side xs _ t h
        exact ⟨(mem_without.1 h1).2.2, (mem_without.1 h2).2.2, h3⟩
    · exact pick_fits side xs F t h

def span (t : Transposition) : ℤ := (t.stop : ℤ) - t.start

def spanSum (l : List Transposition) : ℤ := (l.map span).sum

theorem spanSum_cons (t : Transposition) (l : List Transposition) :
    spanSum (t :: l) = span t + spanSum l := by simp [spanSum]

/-- One free end more. -/
theorem pick_more (side : ℕ × ℤ → Bool) (M : ℤ) : ∀ (es : List Transposition) (F : Ends) (v : ℕ × ℤ) (lo : ℤ),
    v ∉ F → (∀ t ∈ es, t.start ≠ t.stop) → es.Pairwise (fun t u => span t ≤ span u) →
    (∀ t ∈ es, lo ≤ span t ∧ span t ≤ M) → lo ≤ M →
    ((pick side es (insert v F)).length = (pick side es F).length ∧
      0 ≤ spanSum (pick side es F) - spanSum (pick side es (insert v F)) ∧
      spanSum (pick side es F) - spanSum (pick side es (insert v F)) ≤ M - lo) ∨
    ((pick side es (insert v F)).length = (pick side es F).length + 1 ∧
      lo ≤ spanSum (pick side es (insert v F)) - spanSum (pick side es F) ∧
      spanSum (pick side es (insert v F)) - spanSum (pick side es F) ≤ M)
  | [], F, v, lo, _, _, _, _, hM => .inl (by simp [pick]; omega)
  | t :: ts, F, v, lo, hv, hd, hp, hw, hM => by
    have hd' : ∀ u ∈ ts, u.start ≠ u.stop := fun u hu => hd u (List.mem_cons_of_mem _ hu)
    have hw' : ∀ u ∈ ts, lo ≤ span u ∧ span u ≤ M := fun u hu => hw u (List.mem_cons_of_mem _ hu)
    have ht := hw t (by simp)
    have hp' := (List.pairwise_cons.1 hp).2
    have hwt : ∀ u ∈ ts, span t ≤ span u ∧ span u ≤ M := fun u hu =>
      ⟨(List.pairwise_cons.1 hp).1 u hu, (hw' u hu).2⟩
    have hne : (t.start, t.type) ≠ (t.stop, t.type) := by
      intro h; exact hd t (by simp) (Prod.mk.inj h).1
    by_cases hf : fits side F t
    · -- both take it
      have h1 : v ≠ (t.start, t.type) := by rintro rfl; exact hv hf.1
      have h2 : v ≠ (t.stop, t.type) := by rintro rfl; exact hv hf.2.1
      have hf' : fits side (insert v F) t :=
        ⟨Finset.mem_insert_of_mem hf.1, Finset.mem_insert_of_mem hf.2.1, hf.2.2⟩
      have hins : without (insert v F) t = insert v (without F t) := by
        ext x
        simp only [mem_without, Finset.mem_insert]
        constructor
        · rintro ⟨a, b, c | c⟩
          · exact .inl c
          · exact .inr ⟨a, b, c⟩
        · rintro (rfl | ⟨a, b, c⟩)
          · exact ⟨h2, h1, .inl rfl⟩
          · exact ⟨a, b, .inr c⟩
      rw [pick, pick, if_pos hf, if_pos hf', hins]
      have ih := pick_more side M ts (without F t) v lo
        (fun h => hv (mem_without.1 h).2.2) hd' hp' hw' hM
      simp only [List.length_cons, spanSum_cons]
      rcases ih with ⟨a, b, c⟩ | ⟨a, b, c⟩
      · exact .inl ⟨by omega, by omega, by omega⟩
      · exact .inr ⟨by omega, by omega, by omega⟩
    · by_cases hf' : fits side (insert v F) t
      · -- only the search with the new end takes it
        rw [pick, pick, if_neg hf, if_pos hf']
        obtain ⟨w, hw1, hw2⟩ : ∃ w, w ∈ F ∧ without (insert v F) t = F.erase w := by
          obtain ⟨a, b, c⟩ := hf'
          rcases Finset.mem_insert.1 a with a | a
          · refine ⟨(t.stop, t.type), (Finset.mem_insert.1 b).resolve_left (fun h => hne (a.trans h.symm)), ?_⟩
            ext x
            simp only [mem_without, Finset.mem_insert, Finset.mem_erase]
            constructor
            · rintro ⟨h1, h2, h3 | h3⟩
              · exact (h2 (h3.trans a.symm)).elim
              · exact ⟨h1, h3⟩
            · rintro ⟨h1, h3⟩
              exact ⟨h1, fun h => hv (a ▸ h ▸ h3), .inr h3⟩
          · have hb : (t.stop, t.type) = v := by
              refine (Finset.mem_insert.1 b).resolve_right (fun h => hf ⟨a, h, c⟩)
            refine ⟨(t.start, t.type), a, ?_⟩
            ext x
            simp only [mem_without, Finset.mem_insert, Finset.mem_erase]
            constructor
            · rintro ⟨h1, h2, h3 | h3⟩
              · exact (h1 (h3.trans hb.symm)).elim
              · exact ⟨h2, h3⟩
            · rintro ⟨h1, h3⟩
              exact ⟨fun h => hv (hb ▸ h ▸ h3), h1, .inr h3⟩
        rw [hw2]
        have ih := pick_more side M ts (F.erase w) w (span t) (Finset.notMem_erase w F) hd' hp' hwt ht.2
        rw [Finset.insert_erase hw1] at ih
        simp only [List.length_cons, spanSum_cons]
        rcases ih with ⟨a, b, c⟩ | ⟨a, b, c⟩
        · exact .inr ⟨by omega, by omega, by omega⟩
        · exact .inl ⟨by omega, by omega, by omega⟩
      · rw [pick, pick, if_neg hf, if_neg hf']
        exact pick_more side M ts F v lo hv hd' hp' hw' hM

/-- What is taken: whatever fits and meets nothing taken earlier. -/
theorem mem_pick (side : ℕ × ℤ → Bool) : ∀ (es : List Transposition) (F : Ends) (e : Transposition),
    (∀ t ∈ es, t.start < t.stop) → es.Nodup → es.Pairwise (fun t u => ¬ Earlier u t) →
    e ∈ es → fits side F e →
    (e ∈ pick side es F ↔ ∀ f ∈ pick side es F, Earlier f e → ¬ Collide e f)
  | [], _, _, _, _, _, h, _ => by simp at h
  | t :: ts, F, e, hd, hn, hp, he, hf => by
    have hd' : ∀ u ∈ ts, u.start < u.stop := fun u hu => hd u (List.mem_cons_of_mem _ hu)
    have hn' := List.nodup_cons.1 hn
    have hp' := List.pairwise_cons.1 hp
    rw [pick]
    by_cases hft : fits side F t
    · rw [if_pos hft]
      rcases List.mem_cons.1 he with rfl | he
      · refine ⟨fun _ f hfm hE => ?_, fun _ => by simp⟩
        rcases List.mem_cons.1 hfm with rfl | hfm
        · unfold Earlier at hE; omega
        · exact (hp'.1 f ((pick_sub side ts _).subset hfm) hE).elim
      · have hne : e ≠ t := fun h => hn'.1 (h ▸ he)
        by_cases hc : Collide e t
        · have hE : Earlier t e := by
            have h1 := hp'.1 e he
            have h2 := hd t (by simp)
            have h3 := hd' e he
            by_contra h4
            apply hne
            unfold Earlier at h1 h4
            have hs : e.start = t.start := by omega
            have hs' : e.stop = t.stop := by omega
            cases e; cases t
            simp only [Collide] at hc hs hs'
            rw [hs, hs', hc.1]
          refine ⟨fun hm => ?_, fun h => (h t (by simp) hE hc).elim⟩
          rcases List.mem_cons.1 hm with h | hm
          · exact (hne h).elim
          · obtain ⟨a, b, -⟩ := pick_fits side ts _ e hm
            rw [mem_without] at a b
            obtain ⟨hty, p, h1, h2⟩ := hc
            rcases h1 with rfl | rfl <;> rcases h2 with h2 | h2
            · exact (a.2.1 (by rw [h2, hty])).elim
            · exact (a.1 (by rw [h2, hty])).elim
            · exact (b.2.1 (by rw [h2, hty])).elim
            · exact (b.1 (by rw [h2, hty])).elim
        · have hfe : fits side (without F t) e := by
            obtain ⟨a, b, c⟩ := hf
            refine ⟨mem_without.2 ⟨?_, ?_, a⟩, mem_without.2 ⟨?_, ?_, b⟩, c⟩
            · intro h; exact hc ⟨(Prod.mk.inj h).2, t.stop, .inl (Prod.mk.inj h).1, .inr rfl⟩
            · intro h; exact hc ⟨(Prod.mk.inj h).2, t.start, .inl (Prod.mk.inj h).1, .inl rfl⟩
            · intro h; exact hc ⟨(Prod.mk.inj h).2, t.stop, .inr (Prod.mk.inj h).1, .inr rfl⟩
            · intro h; exact hc ⟨(Prod.mk.inj h).2, t.start, .inr (Prod.mk.inj h).1, .inl rfl⟩
          have ih := mem_pick side ts (without F t) e hd' hn'.2 hp'.2 he hfe
          constructor
          · intro hm f hfm hE
            rcases List.mem_cons.1 hm with h | hm
            · exact (hne h).elim
            rcases List.mem_cons.1 hfm with rfl | hfm
            · exact hc
            · exact ih.1 hm f hfm hE
          · intro h
            exact List.mem_cons_of_mem _ (ih.2 (fun f hfm => h f (List.mem_cons_of_mem _ hfm)))
    · rw [if_neg hft]
      have he' : e ∈ ts := by
        rcases List.mem_cons.1 he with rfl | h
        · exact (hft hf).elim
        · exact h
      exact mem_pick side ts F e hd' hn'.2 hp'.2 he' hf

/-! ## The pairs of positions -/

/-- All pairs of positions and types, in an order the search follows. -/
noncomputable def pairs (n : ℕ) (nT : ℤ) (U : Finset ℤ) : List Transposition :=
  (keysOf n nT).flatMap (fun k => U.toList.map (fun u => ⟨k.2, k.2 + k.1, u⟩))

theorem mem_pairs {n : ℕ} {nT : ℤ} {U : Finset ℤ} {t : Transposition} : t ∈ pairs n nT U ↔
    t.start < t.stop ∧ t.stop < n ∧ (t.stop : ℤ) - t.start < nT ∧ t.type ∈ U := by
  simp only [pairs, List.mem_flatMap, List.mem_map, Finset.mem_toList]
  constructor
  · rintro ⟨k, hk, u, hu, rfl⟩
    obtain ⟨h1, h2, h3⟩ := mem_keysOf.1 hk
    exact ⟨by simp only; omega, by simp only; omega, by simp only; omega, hu⟩
  · rintro ⟨h1, h2, h3, h4⟩
    refine ⟨(t.stop - t.start, t.start), mem_keysOf.2 ⟨?_, ?_, ?_⟩, t.type, h4, ?_⟩
    · simp only; omega
    · simp only; omega
    · simp only; omega
    · cases t; simp only [Transposition.mk.injEq, true_and, and_true] at *; omega

theorem pairs_sorted (n : ℕ) (nT : ℤ) (U : Finset ℤ) :
    (pairs n nT U).Pairwise (fun t u => ¬ Earlier u t) := by
  unfold pairs
  rw [List.pairwise_flatMap]
  refine ⟨fun k _ => ?_, (keysOf_sorted n nT).imp ?_⟩
  · refine List.pairwise_map.2 (List.pairwise_of_forall (fun a b => ?_))
    unfold Earlier; simp
  · intro j k hjk x hx y hy
    obtain ⟨_, _, rfl⟩ := List.mem_map.1 hx
    obtain ⟨_, _, rfl⟩ := List.mem_map.1 hy
    unfold keyLt at hjk
    unfold Earlier
    simp only
    omega

theorem pairs_nodup (n : ℕ) (nT : ℤ) (U : Finset ℤ) : (pairs n nT U).Nodup := by
  unfold pairs
  rw [List.Nodup, List.pairwise_flatMap]
  refine ⟨fun k _ => ?_, (keysOf_sorted n nT).imp ?_⟩
  · refine List.pairwise_map.2 ((Finset.nodup_toList U).imp (fun h h' => h ?_))
    simpa using h'
  · intro j k hjk x hx y hy hxy
    obtain ⟨_, _, rfl⟩ := List.mem_map.1 hx
    obtain ⟨_, _, rfl⟩ := List.mem_map.1 hy
    unfold keyLt at hjk
    simp only [Transposition.mk.injEq] at hxy
    omega

/-! ## The reported transpositions -/

/-- The boundaries that only one string has. -/
def misses (a b : BString) : Ends :=
  (Finset.range a.length).biUnion (fun p => (missedAt a b p).image (fun t => (p, t)))

theorem missedAt_lt {a b : BString} (hl : a.length = b.length) {p : ℕ} {t : ℤ} (h : t ∈ missedAt a b p) :
    p < a.length := by
  rw [missedAt, onlyIn, onlyIn, Finset.mem_union, Finset.mem_sdiff, Finset.mem_sdiff] at h
  rcases h with h | h
  · exact typesAt_lt h.1
  · exact hl ▸ typesAt_lt h.1

theorem mem_misses {a b : BString} (hl : a.length = b.length) {x : ℕ × ℤ} :
    x ∈ misses a b ↔ x.2 ∈ missedAt a b x.1 := by
  obtain ⟨p, t⟩ := x
  simp only [misses, Finset.mem_biUnion, Finset.mem_range, Finset.mem_image, Prod.mk.injEq]
  constructor
  · rintro ⟨q, -, u, hu, rfl, rfl⟩; exact hu
  · intro h; exact ⟨p, missedAt_lt hl h, t, h, rfl, rfl⟩

theorem misses_card {a b : BString} (hl : a.length = b.length) :
    (misses a b).card = ∑ p ∈ Finset.range a.length, (missedAt a b p).card := by
  refine card_by_position (n := a.length) (misses a b) (fun p => missedAt a b p) (fun p t => ?_)
  rw [mem_misses hl]
  exact ⟨fun h => ⟨missedAt_lt hl h, h⟩, fun h => h.2⟩

/-- Which string has a boundary that only one has. -/
def inB (b : BString) (x : ℕ × ℤ) : Bool := decide (x.2 ∈ typesAt b x.1)

theorem genuine_iff {a b : BString} (hl : a.length = b.length) {nT : ℤ} {t : Transposition} {U : Finset ℤ}
    (hU : ∀ p, missedAt a b p ⊆ U) :
    Genuine a b nT t ↔ t ∈ pairs a.length nT U ∧ fits (inB b) (misses a b) t := by
  rw [mem_pairs]
  have hmoves : Moves a b t ↔ fits (inB b) (misses a b) t := by
    unfold fits Moves
    simp only [mem_misses hl, missedAt, onlyIn, Finset.mem_union, Finset.mem_sdiff, inB, ne_eq,
      decide_eq_decide]
    by_cases h1 : t.type ∈ typesAt a t.start <;> by_cases h2 : t.type ∈ typesAt b t.start <;>
      by_cases h3 : t.type ∈ typesAt a t.stop <;> by_cases h4 : t.type ∈ typesAt b t.stop <;>
      simp [h1, h2, h3, h4]
  constructor
  · intro h
    have hm := hmoves.1 h.moves
    exact ⟨⟨h.ordered, h.inRange, h.span, hU _ ((mem_misses hl).1 hm.1)⟩, hm⟩
  · rintro ⟨⟨h1, h2, h3, -⟩, hm⟩
    exact ⟨h1, h2, h3, hmoves.2 hm⟩

theorem not_substitutable {a b : BString} (ho : OneSided a b) (ts : List Transposition) (t : Transposition) :
    ¬ Substitutable a b ts t := by
  intro h
  obtain ⟨h1, h2⟩ := h t.start (.inl rfl)
  rcases ho t.start with h | h
  · exact h1 (by simp [leftover, h])
  · exact h2 (by simp [leftover, h])

theorem nodup_of_disjoint {ts : List Transposition} (h : Spec.Disjoint ts) : ts.Nodup :=
  h.imp (fun hd heq => hd (by rw [heq]) _ ⟨.inl rfl, by rw [heq]; exact .inl rfl⟩)

theorem allT_pick {rt : Runtime} {a b : BString} (hl : a.length = b.length) (hs : SharedTypes rt a b)
    (ho : OneSided a b) (nT : ℤ) {U : Finset ℤ} (hU : ∀ p, missedAt a b p ⊆ U) :
    (allT rt a b nT).Perm (pick (inB b) (pairs a.length nT U) (misses a b)) := by
  rw [List.perm_ext_iff_of_nodup (nodup_of_disjoint (allT_disjoint (le_of_eq hl) hs nT))
    ((pairs_nodup _ _ _).sublist (pick_sub _ _ _))]
  refine greedy_unique (allT_genuine rt a b nT) ?_ (fun t ht => allT_greedy (le_of_eq hl) hs ht) ?_
  · intro t ht
    exact (genuine_iff hl hU).2 ⟨(pick_sub _ _ _).subset ht, pick_fits _ _ _ t ht⟩
  · intro t ht
    obtain ⟨h1, h2⟩ := (genuine_iff hl hU).1 ht
    rw [mem_pick (inB b) _ _ t (fun u hu => (mem_pairs.1 hu).1) (pairs_nodup _ _ _) (pairs_sorted _ _ _)
      h1 h2]
    constructor
    · intro h
      refine ⟨fun u hu => ?_, not_substitutable ho _ _⟩
      simp only [earlier, List.mem_filter, decide_eq_true_eq] at hu
      exact h u hu.1 hu.2
    · rintro ⟨h, -⟩ f hf hE
      exact h f (by simp only [earlier, List.mem_filter, decide_eq_true_eq]; exact ⟨hf, hE⟩)

theorem credit_span (nT : ℤ) (l : List Transposition) :
    transpositionCredit nT l = l.length - (spanSum l : ℚ) / nT := by
  induction l with
  | nil => simp [transpositionCredit, spanSum]
  | cons t l ih =>
    rw [transpositionCredit, List.map_cons, List.sum_cons, ← transpositionCredit, ih, spanSum_cons,
      transpositionCost, span, List.length_cons]
    push_cast
    ring

theorem credit_perm (nT : ℤ) {l l' : List Transposition} (h : l.Perm l') :
    transpositionCredit nT l = transpositionCredit nT l' := (h.map _).sum_eq

/-- With one free end more: as many transpositions or one more, and no less credit, at most one more. -/
theorem more_ends (side : ℕ × ℤ → Bool) (n : ℕ) (nT : ℤ) (U : Finset ℤ) (F : Ends) (v : ℕ × ℤ) (hv : v ∉ F) :
    (pick side (pairs n nT U) F).length ≤ (pick side (pairs n nT U) (insert v F)).length ∧
    (pick side (pairs n nT U) (insert v F)).length ≤ (pick side (pairs n nT U) F).length + 1 ∧
    transpositionCredit nT (pick side (pairs n nT U) F) ≤
      transpositionCredit nT (pick side (pairs n nT U) (insert v F)) ∧
    transpositionCredit nT (pick side (pairs n nT U) (insert v F)) ≤
      transpositionCredit nT (pick side (pairs n nT U) F) + 1 := by
  rcases lt_or_ge nT 2 with hn | hn
  · have : pairs n nT U = [] := by
      refine List.eq_nil_iff_forall_not_mem.2 (fun t ht => ?_)
      obtain ⟨h1, -, h3, -⟩ := mem_pairs.1 ht
      omega
    rw [this]
    simp [pick]
  · have key := pick_more side (nT - 1) (pairs n nT U) F v 1 hv
      (fun t ht => (mem_pairs.1 ht).1.ne)
      ((pairs_sorted n nT U).imp_of_mem (fun {x y} hx hy h => by
        have h1 := (mem_pairs.1 hx).1
        have h2 := (mem_pairs.1 hy).1
        unfold Earlier at h
        unfold span
        omega))
      (fun t ht => by
        obtain ⟨h1, -, h3, -⟩ := mem_pairs.1 ht
        unfold span
        omega) (by omega)
    simp only [credit_span]
    set X := pick side (pairs n nT U) F
    set X' := pick side (pairs n nT U) (insert v F)
    have hn0 : (0 : ℚ) < nT := by exact_mod_cast (show 0 < nT by omega)
    rcases key with ⟨h1, h2, h3⟩ | ⟨h1, h2, h3⟩
    · have e1 : (X'.length : ℚ) = X.length := by exact_mod_cast h1
      have e2 : (0 : ℚ) ≤ (spanSum X : ℚ) - spanSum X' := by exact_mod_cast h2
      have e3 : (spanSum X : ℚ) - spanSum X' ≤ nT := by exact_mod_cast (by omega : spanSum X - spanSum X' ≤ nT)
      have e4 : ((spanSum X : ℚ) - spanSum X') / nT = (spanSum X : ℚ) / nT - (spanSum X' : ℚ) / nT :=
        sub_div _ _ _
      have e5 : 0 ≤ ((spanSum X : ℚ) - spanSum X') / nT := div_nonneg e2 hn0.le
      have e6 : ((spanSum X : ℚ) - spanSum X') / nT ≤ 1 := (div_le_one hn0).2 e3
      exact ⟨by omega, by omega, by linarith, by linarith⟩
    · have e1 : (X'.length : ℚ) = X.length + 1 := by exact_mod_cast h1
      have e2 : (0 : ℚ) ≤ (spanSum X' : ℚ) - spanSum X := by
        exact_mod_cast (by omega : 0 ≤ spanSum X' - spanSum X)
      have e3 : (spanSum X' : ℚ) - spanSum X ≤ nT := by
        exact_mod_cast (by omega : spanSum X' - spanSum X ≤ nT)
      have e4 : ((spanSum X' : ℚ) - spanSum X) / nT = (spanSum X' : ℚ) / nT - (spanSum X : ℚ) / nT :=
        sub_div _ _ _
      have e5 : 0 ≤ ((spanSum X' : ℚ) - spanSum X) / nT := div_nonneg e2 hn0.le
      have e6 : ((spanSum X' : ℚ) - spanSum X) / nT ≤ 1 := (div_le_one hn0).2 e3
      exact ⟨by omega, by omega, by linarith, by linarith⟩

end Chain

open Chain

section
variable {rt rt' : Runtime} {a a' b : BString} {p : ℕ} {t : ℤ}

theorem missedAt_iff {a b : BString} {p : ℕ} {t : ℤ} :
    t ∈ missedAt a b p ↔ ¬ (t ∈ typesAt a p ↔ t ∈ typesAt b p) := by
  simp only [missedAt, onlyIn, Finset.mem_union, Finset.mem_sdiff]
  by_cases h1 : t ∈ typesAt a p <;> by_cases h2 : t ∈ typesAt b p <;> simp [h1, h2]

theorem Spec.OneMore.mem (h : OneMore a a' p t) (q : ℕ) (u : ℤ) :
    u ∈ typesAt a' q ↔ (q, u) = (p, t) ∨ u ∈ typesAt a q := by
  by_cases hq : q = p
  · subst hq
    rw [h.here, Finset.mem_insert]
    simp
  · rw [h.elsewhere q hq]
    simp [hq]

theorem Spec.OneMore.misses_out (h : OneMore a a' p t) (hl : a.length = b.length) (hb : t ∉ typesAt b p) :
    misses a' b = insert (p, t) (misses a b) ∧ (p, t) ∉ misses a b := by
  have hl' : a'.length = b.length := h.length.trans hl
  constructor
  · ext ⟨q, u⟩
    rw [mem_misses hl', Finset.mem_insert, mem_misses hl, missedAt_iff, missedAt_iff]
    simp only
    rw [h.mem q u]
    by_cases hx : (q, u) = (p, t)
    · obtain ⟨rfl, rfl⟩ := Prod.mk.inj hx
      simp [hb]
    · simp [hx]
  · rw [mem_misses hl, missedAt_iff]
    simp [hb, h.new]

theorem Spec.OneMore.misses_in (h : OneMore a a' p t) (hl : a.length = b.length) (hb : t ∈ typesAt b p) :
    misses a b = insert (p, t) (misses a' b) ∧ (p, t) ∉ misses a' b := by
  have hl' : a'.length = b.length := h.length.trans hl
  constructor
  · ext ⟨q, u⟩
    rw [mem_misses hl, Finset.mem_insert, mem_misses hl', missedAt_iff, missedAt_iff]
    simp only
    rw [h.mem q u]
    by_cases hx : (q, u) = (p, t)
    · obtain ⟨rfl, rfl⟩ := Prod.mk.inj hx
      simp [hb, h.new]
    · simp [hx]
  · rw [mem_misses hl', missedAt_iff]
    simp [hb, h.here]

theorem boundaries_more (h : OneMore a a' p t) : boundaries a' = insert (p, t) (boundaries a) := by
  ext ⟨q, u⟩
  rw [mem_boundaries, Finset.mem_insert, mem_boundaries]
  exact h.mem q u

theorem matchCount_out (h : OneMore a a' p t) (hb : t ∉ typesAt b p) : matchCount a' b = matchCount a b := by
  rw [matches_card, matches_card, boundaries_more h, Finset.insert_inter_of_notMem]
  rw [mem_boundaries]; exact hb

theorem matchCount_in (h : OneMore a a' p t) (hb : t ∈ typesAt b p) :
    matchCount a' b = matchCount a b + 1 := by
  rw [matches_card, matches_card, boundaries_more h, Finset.insert_inter_of_mem (mem_boundaries.2 hb),
    Finset.card_insert_of_notMem]
  rw [Finset.mem_inter, mem_boundaries]
  exact fun hx => h.new hx.1

theorem edits_misses {e : Edits} {nT : ℤ} (hl : a.length = b.length) (hs : SharedTypes rt a b)
    (ho : OneSided a b) (he : boundaryEditDistance rt a b nT = .ok e) :
    editCount e + e.transpositions.length = (misses a b).card ∧
      e.additions.length + 2 * e.transpositions.length = (misses a b).card := by
  have h1 := Props.C06_edits_account rt a b hl nT hs e he
  have h2 := no_substitutions hl ho he
  rw [← misses_card hl, h2] at h1
  rw [editCount, h2]
  simp only [List.length_nil] at h1 ⊢
  omega

/-- What one boundary more changes: the credit grows by one at most, and so does the number of edits and
matches. -/
theorem one_more (h : OneMore a a' p t) (hl : a.length = b.length) (hs : SharedTypes rt a b)
    (hs' : SharedTypes rt' a' b) (ho : OneSided a b) (ho' : OneSided a' b) {nT : ℤ} {e e' : Edits}
    (he : boundaryEditDistance rt a b nT = .ok e) (he' : boundaryEditDistance rt' a' b nT = .ok e') :
    (matchCount a b + transpositionCredit nT e.transpositions : ℚ) ≤
      matchCount a' b + transpositionCredit nT e'.transpositions ∧
    (matchCount a' b + transpositionCredit nT e'.transpositions : ℚ) ≤
      matchCount a b + transpositionCredit nT e.transpositions + 1 ∧
    editCount e + matchCount a b ≤ editCount e' + matchCount a' b ∧
    editCount e' + matchCount a' b ≤ editCount e + matchCount a b + 1 ∧
    |(editCount e' - transpositionCredit nT e'.transpositions : ℚ) -
      (editCount e - transpositionCredit nT e.transpositions)| ≤ 1 := by
  have hl' : a'.length = b.length := h.length.trans hl
  obtain ⟨m1, -⟩ := edits_misses hl hs ho he
  obtain ⟨m2, -⟩ := edits_misses hl' hs' ho' he'
  have hT : e.transpositions = allT rt a b nT := by rw [bed_edits (le_of_eq hl) he]; rfl
  have hT' : e'.transpositions = allT rt' a' b nT := by rw [bed_edits (le_of_eq hl') he']; rfl
  set U : Finset ℤ := (misses a b ∪ misses a' b).image Prod.snd with hUdef
  have hU : ∀ q, missedAt a b q ⊆ U := fun q u hu => Finset.mem_image.2
    ⟨(q, u), Finset.mem_union_left _ ((mem_misses hl).2 hu), rfl⟩
  have hU' : ∀ q, missedAt a' b q ⊆ U := fun q u hu => Finset.mem_image.2
    ⟨(q, u), Finset.mem_union_right _ ((mem_misses hl').2 hu), rfl⟩
  have p1 := allT_pick hl hs ho nT hU
  have p2 := allT_pick hl' hs' ho' nT hU'
  rw [h.length] at p2
  rw [hT] at m1 ⊢
  rw [hT'] at m2 ⊢
  rw [credit_perm nT p1, credit_perm nT p2]
  rw [p1.length_eq] at m1
  rw [p2.length_eq] at m2
  by_cases hb : t ∈ typesAt b p
  · obtain ⟨g1, g2⟩ := h.misses_in hl hb
    obtain ⟨k1, k2, k3, k4⟩ := more_ends (inB b) a.length nT U _ _ g2
    rw [← g1] at k1 k2 k3 k4
    have hc : (misses a b).card = (misses a' b).card + 1 := by rw [g1, Finset.card_insert_of_notMem g2]
    have hm := matchCount_in h hb
    have hm' : (matchCount a' b : ℚ) = matchCount a b + 1 := by exact_mod_cast hm
    refine ⟨by linarith, by linarith, by omega, by omega, ?_⟩
    rcases Nat.lt_or_ge (editCount e') (editCount e) with hlt | hge
    · have h1 : (editCount e : ℚ) = editCount e' + 1 := by
        exact_mod_cast (by omega : editCount e = editCount e' + 1)
      rw [abs_le]; constructor <;> linarith
    · have h1 : (editCount e : ℚ) = editCount e' := by
        exact_mod_cast (by omega : editCount e = editCount e')
      rw [abs_le]; constructor <;> linarith
  · obtain ⟨g1, g2⟩ := h.misses_out hl hb
    obtain ⟨k1, k2, k3, k4⟩ := more_ends (inB b) a.length nT U _ _ g2
    rw [← g1] at k1 k2 k3 k4
    have hc : (misses a' b).card = (misses a b).card + 1 := by rw [g1, Finset.card_insert_of_notMem g2]
    have hm := matchCount_out h hb
    have hm' : (matchCount a' b : ℚ) = matchCount a b := by exact_mod_cast hm
    refine ⟨by linarith, by linarith, by omega, by omega, ?_⟩
    rcases Nat.lt_or_ge (editCount e) (editCount e') with hlt | hge
    · have h1 : (editCount e' : ℚ) = editCount e + 1 := by
        exact_mod_cast (by omega : editCount e' = editCount e + 1)
      rw [abs_le]; constructor <;> linarith
    · have h1 : (editCount e : ℚ) = editCount e' := by
        exact_mod_cast (by omega : editCount e = editCount e')
      rw [abs_le]; constructor <;> linarith

/-- Fractions of which the parts grow by one at most. -/
theorem fraction_close {N N' D D' : ℚ} (hD : 0 < D) (hN : 0 ≤ N) (hND : N ≤ D) (h1 : N ≤ N')
    (h2 : N' ≤ N + 1) (h3 : D ≤ D') (h4 : D' ≤ D + 1) : |N' / D' - N / D| ≤ 1 / D := by
  have hD' : 0 < D' := lt_of_lt_of_le hD h3
  rw [div_sub_div _ _ hD'.ne' hD.ne', abs_div, abs_of_pos (mul_pos hD' hD), div_le_div_iff₀ (mul_pos hD' hD) hD,
    one_mul]
  refine mul_le_mul_of_nonneg_right ?_ hD.le
  have g1 : N' * D ≤ (N + 1) * D := mul_le_mul_of_nonneg_right h2 hD.le
  have g2 : N * D ≤ N' * D := mul_le_mul_of_nonneg_right h1 hD.le
  have g3 : D * N ≤ D' * N := mul_le_mul_of_nonneg_right h3 hN
  have g4 : D' * N ≤ (D + 1) * N := mul_le_mul_of_nonneg_right h4 hN
  rw [abs_le]
  constructor <;> linarith

end

end SegEval
