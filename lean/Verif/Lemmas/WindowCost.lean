import Mathlib.Algebra.BigOperators.Intervals
import Mathlib.Order.Interval.Finset.Nat
import Mathlib.Logic.Equiv.Basic
import Verif.Lemmas.WindowEval
import Verif.Spec.WindowCost

/-!
# How many windows one boundary can put in error
-/

namespace SegEval

open Spec

def mark (p : List Bool) (m : ℕ) : ℕ := if p[m]? = some true then 1 else 0

theorem between_sum (p : List Bool) (i k : ℕ) : between p i k = ∑ m ∈ Finset.Ico i (i + k), mark p m := by
  induction k with
  | zero => simp [between]
  | succ k ih =>
    rw [between_succ, ih, ← add_assoc, Finset.sum_Ico_succ_top (by omega)]
    rfl

theorem between_same {p q : List Bool} {i k : ℕ} (h : ∀ m, i ≤ m → m < i + k → p[m]? = q[m]?) :
    between p i k = between q i k := by
  rw [between_sum, between_sum]
  refine Finset.sum_congr rfl (fun m hm => ?_)
  rw [Finset.mem_Ico] at hm
  rw [mark, mark, h m hm.1 hm.2]

theorem between_one {p q : List Bool} {i k x : ℕ} (hx : i ≤ x ∧ x < i + k) (hl : p.length = q.length)
    (hne : p[x]? ≠ q[x]?) (h : ∀ m, i ≤ m → m < i + k → m ≠ x → p[m]? = q[m]?) :
    between p i k ≠ between q i k := by
  rw [between_sum, between_sum]
  have hm : x ∈ Finset.Ico i (i + k) := Finset.mem_Ico.2 hx
  rw [← Finset.add_sum_erase _ _ hm, ← Finset.add_sum_erase _ (mark q) hm]
  have hr : ∑ m ∈ (Finset.Ico i (i + k)).erase x, mark p m =
      ∑ m ∈ (Finset.Ico i (i + k)).erase x, mark q m := by
    refine Finset.sum_congr rfl (fun m hm => ?_)
    rw [Finset.mem_erase, Finset.mem_Ico] at hm
    rw [mark, mark, h m hm.2.1 hm.2.2 hm.1]
  rw [hr]
  have hmark : mark p x ≠ mark q x := by
    unfold mark
    by_cases hlt : x < p.length
    · have hlt' : x < q.length := hl ▸ hlt
      rw [List.getElem?_eq_getElem hlt, List.getElem?_eq_getElem hlt'] at hne ⊢
      cases hp : p[x] <;> cases hq : q[x] <;> simp_all
    · exact (hne (by rw [List.getElem?_eq_none (by omega), List.getElem?_eq_none (by omega)])).elim
  omega

theorem between_both {p q : List Bool} {i k a b : ℕ} (h : BoundaryMoved p q a b)
    (hab : (i ≤ a ∧ a < i + k) ↔ (i ≤ b ∧ b < i + k)) : between p i k = between q i k := by
  have hne : a ≠ b := by
    rintro rfl
    have := h.leave.1.symm.trans h.enter.1
    cases this
  by_cases ha : i ≤ a ∧ a < i + k
  · have hb := hab.1 ha
    rw [between_sum, between_sum]
    refine Finset.sum_equiv (Equiv.swap a b) (fun m => ?_) (fun m _ => ?_)
    · simp only [Finset.mem_Ico]
      by_cases h1 : m = a
      · subst h1; rw [Equiv.swap_apply_left]; exact hab
      · by_cases h2 : m = b
        · subst h2; rw [Equiv.swap_apply_right]; exact hab.symm
        · rw [Equiv.swap_apply_of_ne_of_ne h1 h2]
    · by_cases h1 : m = a
      · subst h1; rw [Equiv.swap_apply_left, mark, mark, h.leave.1, h.enter.2]
      · by_cases h2 : m = b
        · subst h2; rw [Equiv.swap_apply_right, mark, mark, h.enter.1, h.leave.2]
        · rw [Equiv.swap_apply_of_ne_of_ne h1 h2, mark, mark, h.rest m h1 h2]
  · have hb := fun hb => ha (hab.2 hb)
    refine between_same (fun m h1 h2 => h.rest m ?_ ?_)
    · rintro rfl; exact ha ⟨h1, h2⟩
    · rintro rfl; exact hb ⟨h1, h2⟩

/-! ## Counting windows -/

/-- The windows over a place. -/
def over (W k x : ℕ) : Finset ℕ := (Finset.range W).filter (fun i => i ≤ x ∧ x < i + k)

theorem over_eq (W k x : ℕ) : over W k x = Finset.Ico (x + 1 - k) (min W (x + 1)) := by
  ext i
  simp only [over, Finset.mem_filter, Finset.mem_range, Finset.mem_Ico]
  omega

theorem over_le (W k x : ℕ) : (over W k x).card ≤ k := by
  rw [over_eq, Nat.card_Ico]; omega

/-- The windows over exactly one of two places. -/
def overOne (W k a b : ℕ) : Finset ℕ :=
  (Finset.range W).filter (fun i => ¬ ((i ≤ a ∧ a < i + k) ↔ (i ≤ b ∧ b < i + k)))

theorem overOne_split {W k a b : ℕ} (hab : a < b) : overOne W k a b =
    Finset.Ico (a + 1 - k) (min W (min (a + 1) (b + 1 - k))) ∪
      Finset.Ico (max (a + 1) (b + 1 - k)) (min W (b + 1)) := by
  ext i
  simp only [overOne, Finset.mem_filter, Finset.mem_range, Finset.mem_union, Finset.mem_Ico]
  omega

theorem overOne_card {W k a b : ℕ} (hab : a < b) : (overOne W k a b).card =
    (min W (min (a + 1) (b + 1 - k)) - (a + 1 - k)) + (min W (b + 1) - max (a + 1) (b + 1 - k)) := by
  rw [overOne_split hab, Finset.card_union_of_disjoint, Nat.card_Ico, Nat.card_Ico]
  rw [Finset.disjoint_left]
  intro i hi hi'
  rw [Finset.mem_Ico] at hi hi'
  omega

theorem overOne_comm (W k a b : ℕ) : overOne W k a b = overOne W k b a := by
  unfold overOne
  congr 1
  ext i
  exact not_congr Iff.comm

/-- The distance of two places. -/
theorem overOne_le (W k a b : ℕ) : (overOne W k a b).card ≤ 2 * min (max a b - min a b) k := by
  rcases lt_trichotomy a b with h | rfl | h
  · rw [overOne_card h]; omega
  · unfold overOne; simp
  · rw [overOne_comm, overOne_card h]; omega

/-! ## Errors -/

theorem errors_change {W : ℕ} {P Q : ℕ → Prop} [DecidablePred P] [DecidablePred Q] {C : Finset ℕ}
    (h : ∀ i < W, i ∉ C → (P i ↔ Q i)) :
    |(((Finset.range W).filter P).card : ℚ) - ((Finset.range W).filter Q).card| ≤ C.card := by
  have key : ∀ {P Q : ℕ → Prop} [DecidablePred P] [DecidablePred Q],
      (∀ i < W, i ∉ C → (P i ↔ Q i)) →
      ((Finset.range W).filter P).card ≤ ((Finset.range W).filter Q).card + C.card := by
    intro P Q _ _ h
    refine (Finset.card_le_card ?_).trans (Finset.card_union_le _ _)
    intro i hi
    rw [Finset.mem_filter, Finset.mem_range] at hi
    rw [Finset.mem_union, Finset.mem_filter, Finset.mem_range]
    by_cases hC : i ∈ C
    · exact .inr hC
    · exact .inl ⟨hi.1, (h i hi.1 hC).1 hi.2⟩
  have h1 := key h
  have h2 := key (fun i hi hC => (h i hi hC).symm)
  have h1' : (((Finset.range W).filter P).card : ℚ) ≤ ((Finset.range W).filter Q).card + C.card := by
    exact_mod_cast h1
  have h2' : (((Finset.range W).filter Q).card : ℚ) ≤ ((Finset.range W).filter P).card + C.card := by
    exact_mod_cast h2
  rw [abs_le]
  constructor <;> linarith

/-- The windows over a place at which the patterns differ. -/
def touched (W k : ℕ) (p q : List Bool) : Finset ℕ := (differing p q).biUnion (over W k)

theorem touched_card (W k : ℕ) (p q : List Bool) : (touched W k p q).card ≤ k * (differing p q).card := by
  refine Finset.card_biUnion_le.trans ((Finset.sum_le_card_nsmul _ _ k ?_).trans ?_)
  · exact fun x _ => over_le W k x
  · exact (mul_comm _ _).le

theorem between_untouched {W k : ℕ} {p q : List Bool} (hl : p.length = q.length) {i : ℕ} (hi : i < W)
    (h : i ∉ touched W k p q) : between p i k = between q i k := by
  refine between_same (fun m h1 h2 => ?_)
  by_contra hne
  refine h (Finset.mem_biUnion.2 ⟨m, ?_, ?_⟩)
  · rw [differing, Finset.mem_filter, Finset.mem_range]
    refine ⟨?_, hne⟩
    by_contra hm
    exact hne (by rw [List.getElem?_eq_none (by omega), List.getElem?_eq_none (by omega)])
  · rw [over, Finset.mem_filter, Finset.mem_range]
    exact ⟨hi, h1, h2⟩

theorem padded_shape (k : ℕ) (hk : 1 ≤ k) : ∃ A B : List Bool, A.length = k ∧
    ∀ p, padded k p = A ++ (p ++ B) :=
  ⟨List.replicate (k - 1) false ++ [true], [true] ++ List.replicate (k - 1) false, by simp; omega,
    fun p => by simp [padded]⟩

theorem padded_get (k : ℕ) (hk : 1 ≤ k) (p : List Bool) (m : ℕ) (hm : m < p.length) :
    (padded k p)[m + k]? = p[m]? := by
  obtain ⟨A, B, hA, h⟩ := padded_shape k hk
  rw [h, List.getElem?_append_right (by omega), hA, Nat.add_sub_cancel, List.getElem?_append_left hm]

theorem padded_out (k : ℕ) (hk : 1 ≤ k) {p q : List Bool} (hl : p.length = q.length) (m : ℕ)
    (hm : m < k ∨ p.length + k ≤ m) : (padded k p)[m]? = (padded k q)[m]? := by
  obtain ⟨A, B, hA, h⟩ := padded_shape k hk
  rw [h, h]
  rcases hm with hm | hm
  · rw [List.getElem?_append_left (by omega), List.getElem?_append_left (by omega)]
  · rw [List.getElem?_append_right (l₁ := A) (by omega), List.getElem?_append_right (l₁ := A) (by omega),
      List.getElem?_append_right (l₁ := p) (by omega), List.getElem?_append_right (l₁ := q) (by omega), hl]

theorem padded_cases (k : ℕ) (hk : 1 ≤ k) {p q : List Bool} (hl : p.length = q.length) (m : ℕ) :
    (∃ j < p.length, m = j + k) ∨ (padded k p)[m]? = (padded k q)[m]? := by
  by_cases h : m < k ∨ p.length + k ≤ m
  · exact .inr (padded_out k hk hl m h)
  · exact .inl ⟨m - k, by omega, by omega⟩

theorem padded_differing (k : ℕ) (hk : 1 ≤ k) {p q : List Bool} (hl : p.length = q.length) :
    (differing (padded k p) (padded k q)).card ≤ (differing p q).card := by
  refine (Finset.card_le_card (t := (differing p q).image (· + k)) ?_).trans Finset.card_image_le
  intro m hm
  rw [differing, Finset.mem_filter, Finset.mem_range] at hm
  rcases padded_cases k hk hl m with ⟨j, hj, rfl⟩ | h
  · refine Finset.mem_image.2 ⟨j, ?_, rfl⟩
    rw [padded_get k hk p j hj, padded_get k hk q j (hl ▸ hj)] at hm
    rw [differing, Finset.mem_filter, Finset.mem_range]
    exact ⟨hj, hm.2⟩
  · exact (hm.2 h).elim

theorem lt_of_differ {p q : List Bool} (hl : p.length = q.length) {i : ℕ} (h : p[i]? ≠ q[i]?) :
    i < p.length := by
  by_contra hi
  exact h (by rw [List.getElem?_eq_none (by omega), List.getElem?_eq_none (by omega)])

theorem padded_differAt (k : ℕ) (hk : 1 ≤ k) {p q : List Bool} (hl : p.length = q.length) {i : ℕ}
    (h : DifferAt p q i) : DifferAt (padded k p) (padded k q) (i + k) := by
  have hi := lt_of_differ hl h.here
  refine ⟨?_, fun m hm => ?_⟩
  · rw [padded_get k hk p i hi, padded_get k hk q i (hl ▸ hi)]; exact h.here
  · rcases padded_cases k hk hl m with ⟨j, hj, rfl⟩ | h'
    · rw [padded_get k hk p j hj, padded_get k hk q j (hl ▸ hj)]
      exact h.rest j (by omega)
    · exact h'

theorem padded_moved (k : ℕ) (hk : 1 ≤ k) {p q : List Bool} (hl : p.length = q.length) {i j : ℕ}
    (h : BoundaryMoved p q i j) : BoundaryMoved (padded k p) (padded k q) (i + k) (j + k) := by
  have hi := lt_of_differ hl (show p[i]? ≠ q[i]? by rw [h.leave.1, h.leave.2]; decide)
  have hj := lt_of_differ hl (show p[j]? ≠ q[j]? by rw [h.enter.1, h.enter.2]; decide)
  refine ⟨?_, ?_, fun m h1 h2 => ?_⟩
  · rw [padded_get k hk p i hi, padded_get k hk q i (hl ▸ hi)]; exact h.leave
  · rw [padded_get k hk p j hj, padded_get k hk q j (hl ▸ hj)]; exact h.enter
  · rcases padded_cases k hk hl m with ⟨x, hx, rfl⟩ | h'
    · rw [padded_get k hk p x hx, padded_get k hk q x (hl ▸ hx)]
      exact h.rest x (by omega) (by omega)
    · exact h'

/-- One difference: exactly the windows over it are in error. -/
theorem wdErrors_one {p q : List Bool} (hl : p.length = q.length) {i k : ℕ} (h : DifferAt p q i) :
    wdErrors p q k = over (windows (q.length + 1) k) k i := by
  ext w
  rw [wdErrors, over, Finset.mem_filter, Finset.mem_filter]
  refine and_congr_right (fun _ => ⟨fun hw => ?_, fun hw => ?_⟩)
  · by_contra hn
    exact hw (between_same (fun m h1 h2 => h.rest m (by rintro rfl; exact hn ⟨h1, h2⟩)))
  · exact between_one hw hl h.here (fun m _ _ hm => h.rest m hm)

/-- A moved boundary: exactly the windows over one of the two places are in error. -/
theorem wdErrors_moved {p q : List Bool} (hl : p.length = q.length) {a b k : ℕ}
    (h : BoundaryMoved p q a b) : wdErrors p q k = overOne (windows (q.length + 1) k) k a b := by
  have ha : p[a]? ≠ q[a]? := by rw [h.leave.1, h.leave.2]; decide
  have hb : p[b]? ≠ q[b]? := by rw [h.enter.1, h.enter.2]; decide
  ext w
  rw [wdErrors, overOne, Finset.mem_filter, Finset.mem_filter]
  refine and_congr_right (fun _ => ⟨fun hw hn => hw (between_both h hn), fun hn => ?_⟩)
  by_cases h1 : w ≤ a ∧ a < w + k
  · have h2 : ¬ (w ≤ b ∧ b < w + k) := fun h2 => hn ⟨fun _ => h2, fun _ => h1⟩
    exact between_one h1 hl ha (fun m h3 h4 hm => h.rest m hm (by rintro rfl; exact h2 ⟨h3, h4⟩))
  · have h2 : w ≤ b ∧ b < w + k := by
      by_contra h2
      exact hn ⟨fun h => (h1 h).elim, fun h => (h2 h).elim⟩
    exact between_one h2 hl hb (fun m h3 h4 hm => h.rest m (by rintro rfl; exact h1 ⟨h3, h4⟩) hm)

theorem between_zero_mark (p : List Bool) (w k : ℕ) :
    between p w k = 0 ↔ ∀ m, w ≤ m → m < w + k → p[m]? ≠ some true := by
  rw [between_sum, Finset.sum_eq_zero_iff]
  simp [Finset.mem_Ico, mark]

/-- One difference: Pk is in error at the windows over it without other boundaries. -/
theorem pkErrors_one {p q : List Bool} (hl : p.length = q.length) {i k : ℕ} (h : DifferAt p q i) :
    pkErrors p q k = (Finset.range (windows (q.length + 1) k)).filter
      (fun w => w ≤ i ∧ i < w + k ∧ ∀ m ∈ Finset.Ico w (w + k), m ≠ i → q[m]? ≠ some true) := by
  have hi := lt_of_differ hl h.here
  have hi' : i < q.length := hl ▸ hi
  have hpq := h.here
  rw [List.getElem?_eq_getElem hi, List.getElem?_eq_getElem hi'] at hpq
  ext w
  rw [pkErrors, Finset.mem_filter, Finset.mem_filter]
  refine and_congr_right (fun _ => ?_)
  rw [PkError, between_zero_mark, between_zero_mark]
  constructor
  · intro hw
    have hover : w ≤ i ∧ i < w + k := by
      by_contra hn
      refine hw ⟨fun H m h1 h2 => ?_, fun H m h1 h2 => ?_⟩
      · rw [← h.rest m (by rintro rfl; exact hn ⟨h1, h2⟩)]; exact H m h1 h2
      · rw [h.rest m (by rintro rfl; exact hn ⟨h1, h2⟩)]; exact H m h1 h2
    refine ⟨hover.1, hover.2, fun m hm hmi hq => hw ?_⟩
    rw [Finset.mem_Ico] at hm
    refine ⟨fun H => (H m hm.1 hm.2 ?_).elim, fun H => (H m hm.1 hm.2 hq).elim⟩
    rw [h.rest m hmi]; exact hq
  · rintro ⟨h1, h2, h3⟩ hw
    cases hp : p[i] <;> cases hq : q[i]
    · rw [hp, hq] at hpq; exact hpq rfl
    · refine hw.1 (fun m h4 h5 => ?_) i h1 h2 (by rw [List.getElem?_eq_getElem hi', hq])
      by_cases hm : m = i
      · subst hm; rw [List.getElem?_eq_getElem hi, hp]; decide
      · rw [h.rest m hm]; exact h3 m (Finset.mem_Ico.2 ⟨h4, h5⟩) hm
    · refine hw.2 (fun m h4 h5 => ?_) i h1 h2 (by rw [List.getElem?_eq_getElem hi, hp])
      by_cases hm : m = i
      · subst hm; rw [List.getElem?_eq_getElem hi', hq]; decide
      · exact h3 m (Finset.mem_Ico.2 ⟨h4, h5⟩) hm
    · rw [hp, hq] at hpq; exact hpq rfl

theorem over_fixed {n k i : ℕ} (hi : i < n) : (over (n + 1 + k) k (i + k)).card = k := by
  rw [over_eq, Nat.card_Ico]; omega

theorem over_plain {n k i : ℕ} (hi : i < n) : (over (windows (n + 1) k) k i).card =
    min (min (i + 1) k) (min (n + 1 - k) (n - i)) := by
  rw [over_eq, Nat.card_Ico, windows]; omega

theorem overOne_fixed {n k a b : ℕ} (ha : a < n) (hb : b < n) :
    (overOne (n + 1 + k) k (a + k) (b + k)).card = 2 * min (max a b - min a b) k := by
  rcases lt_trichotomy a b with h | rfl | h
  · rw [overOne_card (by omega)]; omega
  · unfold overOne; simp
  · rw [overOne_comm, overOne_card (by omega)]; omega

end SegEval
