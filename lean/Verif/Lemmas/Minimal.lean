import Verif.Lemmas.Bed

namespace SegEval

open Spec

/-! ## One boundary type, adjacent transpositions: the search finds a largest set -/

theorem oneType_not_blocked {a b : BString} {t : ℤ} (h : OneType a b t) (ts : List Transposition)
    (i j : ℕ) : ¬ Blocked a b ts i j := by
  rintro ⟨⟨h1, h2⟩, _⟩
  obtain ⟨x, hx⟩ := Finset.nonempty_iff_ne_empty.2 h1
  obtain ⟨y, hy⟩ := Finset.nonempty_iff_ne_empty.2 h2
  have hx' := (mem_leftover.1 hx).1
  have hy' := (mem_leftover.1 hy).1
  have e1 := Finset.mem_singleton.1 (h i (Finset.mem_union_left _ hx'))
  have e2 := Finset.mem_singleton.1 (h i (Finset.mem_union_right _ hy'))
  rw [e1] at hx'; rw [e2] at hy'
  exact (mem_onlyIn.1 hx').2 (mem_onlyIn.1 hy').1

theorem allT_two (rt : Runtime) (a b : BString) :
    allT rt a b 2 = (List.range (a.length - 1)).foldl (posT rt a b 1) [] := rfl

/-- The search after the first `k` pairs of neighbours. -/
def greedy (rt : Runtime) (a b : BString) (k : ℕ) : List Transposition :=
  (List.range k).foldl (posT rt a b 1) []

theorem greedy_succ (rt : Runtime) (a b : BString) (k : ℕ) :
    greedy rt a b (k + 1) = posT rt a b 1 (greedy rt a b k) k := by
  simp [greedy, List.range_succ]

theorem greedy_start (rt : Runtime) (a b : BString) (k : ℕ) :
    ∀ u ∈ greedy rt a b k, u.start < k ∧ u.stop = u.start + 1 := by
  induction k with
  | zero => simp [greedy]
  | succ k ih =>
    rw [greedy_succ]
    refine foldl_inv (P := fun ts : List Transposition => ∀ u ∈ ts, u.start < k + 1 ∧ u.stop = u.start + 1) _ _ ?_ _ ?_
    · intro ts d _ hts u hu
      rw [stepT] at hu
      split at hu
      · rcases List.mem_append.1 hu with hu | hu
        · exact hts u hu
        · rw [List.mem_singleton] at hu; subst hu; exact ⟨by simp, rfl⟩
      · exact hts u hu
    · intro u hu
      exact ⟨by have := (ih u hu).1; omega, (ih u hu).2⟩

/-- The set counted so far. -/
def countBelow (ts : List Transposition) (k : ℕ) : ℕ := ts.countP (fun u => decide (u.start < k))

theorem countBelow_succ (ts : List Transposition) (k : ℕ) :
    countBelow ts (k + 1) = countBelow ts k + ts.countP (fun u => decide (u.start = k)) := by
  unfold countBelow
  induction ts with
  | nil => rfl
  | cons u ts ih =>
    simp only [List.countP_cons, ih]
    rcases lt_trichotomy u.start k with h | h | h
    · have h1 : u.start < k + 1 := by omega
      have h2 : u.start ≠ k := by omega
      simp [h, h1, h2]; omega
    · simp [h]; omega
    · have h1 : ¬ u.start < k + 1 := by omega
      have h2 : u.start ≠ k := by omega
      have h3 : ¬ u.start < k := by omega
      simp [h1, h2, h3]

theorem genuine_two {a b : BString} {u : Transposition} (h : Genuine a b 2 u) :
    u.stop = u.start + 1 := by
  have h1 := h.ordered
  have h2 := h.span
  omega

theorem genuine_type {a b : BString} {t : ℤ} (h1 : OneType a b t) {n : ℤ} {u : Transposition}
    (h : Genuine a b n u) : u.type = t :=
  Finset.mem_singleton.1 (h1 _ (moves_missed_start h.moves))

theorem count_start_le_one {a b : BString} {t : ℤ} (h1 : OneType a b t) {us : List Transposition}
    (hg : ∀ u ∈ us, Genuine a b 2 u) (hd : Spec.Disjoint us) (k : ℕ) :
    us.countP (fun u => decide (u.start = k)) +
      us.countP (fun u => decide (u.start = k + 1)) ≤ 1 := by
  induction us with
  | nil => simp
  | cons u us ih =>
    obtain ⟨hd1, hd2⟩ := List.pairwise_cons.1 hd
    have hg' : ∀ u ∈ us, Genuine a b 2 u := fun v hv => hg v (by simp [hv])
    have hu := hg u (by simp)
    by_cases hc : u.start = k ∨ u.start = k + 1
    · have z : us.countP (fun u => decide (u.start = k)) = 0 ∧
          us.countP (fun u => decide (u.start = k + 1)) = 0 := by
        have key : ∀ v ∈ us, ¬ (v.start = k ∨ v.start = k + 1) := by
          intro v hv hvk
          have hv' := hg' v hv
          refine hd1 v hv (by rw [genuine_type h1 hu, genuine_type h1 hv']) (k + 1) ?_
          have e1 := genuine_two hu
          have e2 := genuine_two hv'
          unfold Touches
          omega
        constructor <;> rw [List.countP_eq_zero] <;> intro v hv <;> have := key v hv <;>
          simp only [decide_eq_true_eq] <;> omega
      simp only [List.countP_cons, z.1, z.2]
      rcases hc with hc | hc <;> simp [hc]
    · have h2 : ¬ u.start = k := fun h => hc (Or.inl h)
      have h3 : ¬ u.start = k + 1 := fun h => hc (Or.inr h)
      simp only [List.countP_cons, h2, h3, decide_false, Bool.false_eq_true, if_false, add_zero]
      exact ih hg' hd2

theorem greedy_largest {rt : Runtime} {a b : BString} (hl : a.length ≤ b.length)
    (hs : SharedTypes rt a b) {t : ℤ} (h1 : OneType a b t) {us : List Transposition}
    (hg : ∀ u ∈ us, Genuine a b 2 u) (hd : Spec.Disjoint us) (k : ℕ) (hk : k ≤ a.length - 1) :
    countBelow us k ≤ (greedy rt a b k).length := by
  induction k using Nat.strong_induction_on with
  | _ k ih =>
    cases k with
    | zero => simp [countBelow]
    | succ k =>
      have ihk := ih k (by omega) (by omega)
      have hk1 : k + 1 < a.length := by omega
      have hpos := posT_eq hl (span := 1) (i := k) (by omega) hk1 hs (greedy rt a b k)
      rw [greedy_succ, hpos, List.length_append, countBelow_succ]
      have hone := count_start_le_one h1 hg hd k
      by_cases hc : us.countP (fun u => decide (u.start = k)) = 0
      · omega
      · -- some transposition of the other set starts at `k`
        obtain ⟨u, hu, huk⟩ := List.countP_pos_iff.1 (Nat.pos_of_ne_zero hc)
        rw [decide_eq_true_eq] at huk
        have hgu := hg u hu
        have hcand : t ∈ candidates a b k (k + 1) := by
          rw [mem_candidates]
          have := hgu.moves
          have e1 := genuine_two hgu
          have e2 := genuine_type h1 hgu
          unfold Moves at this ⊢
          rw [e1, e2, huk] at this
          exact this
        by_cases hfree : t ∉ transposedAt (greedy rt a b k) k ∧
            t ∉ transposedAt (greedy rt a b k) (k + 1)
        · -- the search accepts it
          have : 0 < (newT a b k (k + 1) (greedy rt a b k)
              (rt.order [0, 1, k] (candidates a b k (k + 1)))).length := by
            rw [newT, if_neg (oneType_not_blocked h1 _ _ _), List.length_map]
            apply List.length_pos_of_mem (a := t)
            rw [List.mem_filter]
            exact ⟨(rt.mem_order _ _ _).2 hcand, by simpa using hfree⟩
          omega
        · -- the previous pair was taken
          have hnot : t ∉ transposedAt (greedy rt a b k) (k + 1) := by
            intro hc
            obtain ⟨v, hv, hvt, _⟩ := mem_transposedAt.1 hc
            have := greedy_start rt a b k v hv
            unfold Touches at hvt
            omega
          have hin : t ∈ transposedAt (greedy rt a b k) k := by
            by_contra hc; exact hfree ⟨hc, hnot⟩
          obtain ⟨v, hv, hvt, hvty⟩ := mem_transposedAt.1 hin
          have hvs := greedy_start rt a b k v hv
          cases k with
          | zero => omega
          | succ m =>
            have ihm := ih m (by omega) (by omega)
            have hpos' := posT_eq hl (span := 1) (i := m) (by omega) (by omega) hs (greedy rt a b m)
            rw [greedy_succ, hpos'] at hv
            have hnew : 0 < (newT a b m (m + 1) (greedy rt a b m)
                (rt.order [0, 1, m] (candidates a b m (m + 1)))).length := by
              rcases List.mem_append.1 hv with hv' | hv'
              · have := greedy_start rt a b m v hv'
                unfold Touches at hvt
                omega
              · exact List.length_pos_of_mem hv'
            have hgl : (greedy rt a b (m + 1)).length = (greedy rt a b m).length +
                (newT a b m (m + 1) (greedy rt a b m)
                  (rt.order [0, 1, m] (candidates a b m (m + 1)))).length := by
              rw [greedy_succ, hpos', List.length_append]
            have hone' := count_start_le_one h1 hg hd m
            rw [countBelow_succ]
            omega

theorem oneType_max {a b : BString} {t : ℤ} (h : OneType a b t) (ts : List Transposition) (p : ℕ) :
    max (leftover a b ts p).card (leftover b a ts p).card =
      (leftover a b ts p).card + (leftover b a ts p).card := by
  have : ¬ (leftover a b ts p ≠ ∅ ∧ leftover b a ts p ≠ ∅) := fun hc =>
    oneType_not_blocked h ts p p ⟨hc, hc⟩
  by_cases h1 : leftover a b ts p = ∅
  · rw [h1]; simp
  · have h2 : leftover b a ts p = ∅ := by
      by_contra h2; exact this ⟨h1, h2⟩
    rw [h2]; simp

theorem oneType_cost {a b : BString} (hl : a.length = b.length) {t : ℤ} (h : OneType a b t)
    {nT : ℤ} (ts : List Transposition) (hg : ∀ u ∈ ts, Genuine a b nT u) (hd : Spec.Disjoint ts) :
    editsWith a b ts + ts.length = ∑ p ∈ Finset.range a.length, (missedAt a b p).card := by
  have h1 := sum_transposed a b nT _ hg hd
  have h2 := sum_transposed b a nT _ (fun t ht => genuine_comm hl (hg t ht)) hd
  rw [← hl] at h2
  have h3 : ∀ p, (missedAt a b p).card =
      ((leftover a b ts p).card + (leftover b a ts p).card) +
      ((onlyIn a b p ∩ transposedAt ts p).card + (onlyIn b a p ∩ transposedAt ts p).card) := by
    intro p
    rw [missedAt, Finset.card_union_of_disjoint (onlyIn_disjoint a b p),
      card_onlyIn_split a b ts p, card_onlyIn_split b a ts p]
    omega
  rw [editsWith, Finset.sum_congr rfl (fun p _ => h3 p), Finset.sum_add_distrib,
    Finset.sum_add_distrib (f := fun p => (onlyIn a b p ∩ transposedAt ts p).card), h1, h2,
    Finset.sum_congr rfl (fun p _ => oneType_max h ts p)]
  omega

end SegEval
