import Verif.Lemmas.Finer
import Verif.Lemmas.Framed

/-!
# Edits of documents counted in smaller units, with a window as long
-/

namespace SegEval

open Spec

/-- Where a position comes to lie. -/
def finerPos (m p : ℕ) : ℕ := m * (p + 1) - 1

/-- A transposition between the same places. -/
def finerT (m : ℕ) (t : Transposition) : Transposition := ⟨finerPos m t.start, finerPos m t.stop, t.type⟩

variable {m : ℕ} {a b : BString} {nT : ℤ}

theorem finerPos_succ (hm : 1 ≤ m) (p : ℕ) : finerPos m p + 1 = m * (p + 1) :=
  Nat.sub_add_cancel (Nat.mul_pos hm (by omega))

theorem finerPos_injective (hm : 1 ≤ m) : Function.Injective (finerPos m) := by
  intro p q h
  have h1 := finerPos_succ hm p
  rw [h, finerPos_succ hm] at h1
  have := Nat.eq_of_mul_eq_mul_left (by omega) h1
  omega

theorem finerPos_sub (hm : 1 ≤ m) (p q : ℕ) : finerPos m q - finerPos m p = m * (q - p) := by
  have h1 := finerPos_succ hm p
  have h2 := finerPos_succ hm q
  rw [show q - p = (q + 1) - (p + 1) by omega, Nat.mul_sub]
  omega

theorem finerPos_lt (hm : 1 ≤ m) {p q : ℕ} : finerPos m p < finerPos m q ↔ p < q := by
  have h1 := finerPos_succ hm p
  have h2 := finerPos_succ hm q
  have : m * (p + 1) < m * (q + 1) ↔ p + 1 < q + 1 := Nat.mul_lt_mul_left (by omega)
  omega

theorem finerT_injective (hm : 1 ≤ m) : Function.Injective (finerT m) := by
  rintro ⟨i, j, d⟩ ⟨i', j', d'⟩ h
  simp only [finerT, Transposition.mk.injEq] at h ⊢
  exact ⟨finerPos_injective hm h.1, finerPos_injective hm h.2.1, h.2.2⟩

theorem typesAt_finerPos (hm : 1 ≤ m) (s : BString) (p : ℕ) :
    typesAt (finer m ∅ s) (finerPos m p) = typesAt s p := by
  rw [typesAt_finer hm, finerPos_succ hm, Nat.mul_mod_right, if_pos rfl,
    Nat.mul_div_cancel_left _ (by omega), Nat.add_sub_cancel]

theorem onlyIn_finerPos (hm : 1 ≤ m) (a b : BString) (p : ℕ) :
    onlyIn (finer m ∅ a) (finer m ∅ b) (finerPos m p) = onlyIn a b p := by
  rw [onlyIn, onlyIn, typesAt_finerPos hm, typesAt_finerPos hm]

theorem exists_finerPos {p : ℕ} (h : m ∣ p + 1) : ∃ q, p = finerPos m q := by
  obtain ⟨q, hq⟩ := h
  have : q ≠ 0 := by rintro rfl; simp at hq
  refine ⟨q - 1, ?_⟩
  rw [finerPos, Nat.sub_add_cancel (by omega)]
  omega

theorem missed_finer (hm : 1 ≤ m) {p : ℕ} (h : ¬ m ∣ p + 1) :
    missedAt (finer m ∅ a) (finer m ∅ b) p = ∅ := by
  rw [missedAt, onlyIn, onlyIn, typesAt_finer hm, typesAt_finer hm,
    if_neg (fun h' => h (Nat.dvd_of_mod_eq_zero h')), if_neg (fun h' => h (Nat.dvd_of_mod_eq_zero h'))]
  simp

theorem finerPos_lt_length (hm : 1 ≤ m) {p : ℕ} : finerPos m p < (finer m ∅ a).length ↔ p < a.length := by
  have h1 := finer_length (d := (∅ : Finset ℤ)) hm a
  have h2 := finerPos_succ hm p
  have : m * (p + 1) < m * (a.length + 1) ↔ p + 1 < a.length + 1 := Nat.mul_lt_mul_left (by omega)
  omega

theorem genuine_finerT (hm : 1 ≤ m) {t : Transposition} :
    Genuine (finer m ∅ a) (finer m ∅ b) (m * nT) (finerT m t) ↔ Genuine a b nT t := by
  have hmv : Moves (finer m ∅ a) (finer m ∅ b) (finerT m t) ↔ Moves a b t := by
    unfold Moves finerT
    simp only [onlyIn_finerPos hm]
  have hsp : ((finerPos m t.stop : ℤ) - finerPos m t.start < m * nT) ↔ ((t.stop : ℤ) - t.start) < nT := by
    have h1 := finerPos_succ hm t.start
    have h2 := finerPos_succ hm t.stop
    have h1' : (finerPos m t.start : ℤ) + 1 = m * (t.start + 1) := by exact_mod_cast h1
    have h2' : (finerPos m t.stop : ℤ) + 1 = m * (t.stop + 1) := by exact_mod_cast h2
    rw [show (finerPos m t.stop : ℤ) - finerPos m t.start = m * ((t.stop : ℤ) - t.start) by linarith]
    exact mul_lt_mul_iff_right₀ (by exact_mod_cast hm)
  constructor
  · rintro ⟨h1, h2, h3, h4⟩
    exact ⟨(finerPos_lt hm).1 h1, (finerPos_lt_length hm).1 h2, hsp.1 h3, hmv.1 h4⟩
  · rintro ⟨h1, h2, h3, h4⟩
    exact ⟨(finerPos_lt hm).2 h1, (finerPos_lt_length hm).2 h2, hsp.2 h3, hmv.2 h4⟩

theorem genuine_finer (hm : 1 ≤ m) {t : Transposition} {n : ℤ}
    (h : Genuine (finer m ∅ a) (finer m ∅ b) n t) : ∃ u, t = finerT m u := by
  have hd : m ∣ t.start + 1 ∧ m ∣ t.stop + 1 := by
    rcases h.moves with ⟨h1, h2⟩ | ⟨h1, h2⟩
    · exact ⟨onlyIn_finer hm h1, onlyIn_finer hm h2⟩
    · exact ⟨onlyIn_finer hm h1, onlyIn_finer hm h2⟩
  obtain ⟨p, hp⟩ := exists_finerPos hd.1
  obtain ⟨q, hq⟩ := exists_finerPos hd.2
  obtain ⟨i, j, d⟩ := t
  exact ⟨⟨p, q, d⟩, by simp only [finerT, Transposition.mk.injEq, and_true]; exact ⟨hp, hq⟩⟩

theorem touches_finerT (hm : 1 ≤ m) {t : Transposition} {p : ℕ} :
    Touches (finerT m t) (finerPos m p) ↔ Touches t p := by
  simp only [Touches, finerT, (finerPos_injective hm).eq_iff]

theorem touches_finer {t : Transposition} {p : ℕ} (h : Touches (finerT m t) p) :
    ∃ q, p = finerPos m q := by
  rcases h with h | h
  · exact ⟨_, h.symm⟩
  · exact ⟨_, h.symm⟩

theorem earlier_finerT (hm : 1 ≤ m) {t u : Transposition} :
    Earlier (finerT m u) (finerT m t) ↔ Earlier u t := by
  simp only [Earlier, finerT, finerPos_sub hm, finerPos_lt hm, Nat.mul_lt_mul_left (show 0 < m by omega),
    Nat.mul_right_inj (show m ≠ 0 by omega)]

theorem transposedAt_finer (hm : 1 ≤ m) (ts : List Transposition) (p : ℕ) :
    transposedAt (ts.map (finerT m)) (finerPos m p) = transposedAt ts p := by
  refine transposedAt_congr fun d => ⟨?_, ?_⟩
  · rintro ⟨t, ht, h1, h2⟩
    obtain ⟨u, hu, rfl⟩ := List.mem_map.1 ht
    exact ⟨u, hu, (touches_finerT hm).1 h1, h2⟩
  · rintro ⟨u, hu, h1, h2⟩
    exact ⟨_, List.mem_map_of_mem hu, (touches_finerT hm).2 h1, h2⟩

theorem leftover_finer (hm : 1 ≤ m) (ts : List Transposition) (p : ℕ) :
    leftover (finer m ∅ a) (finer m ∅ b) (ts.map (finerT m)) (finerPos m p) = leftover a b ts p := by
  rw [leftover, leftover, onlyIn_finerPos hm, transposedAt_finer hm]

theorem earlier_map_finer (hm : 1 ≤ m) (ts : List Transposition) (t : Transposition) :
    earlier (ts.map (finerT m)) (finerT m t) = (earlier ts t).map (finerT m) := by
  rw [earlier, earlier, List.filter_map]
  congr 1
  refine List.filter_congr fun u _ => ?_
  simp only [Function.comp_apply, earlier_finerT hm]

/-- The choice of transpositions is the same. -/
theorem chosen_finer (hm : 1 ≤ m) {ts : List Transposition} (h : Chosen a b nT ts) :
    Chosen (finer m ∅ a) (finer m ∅ b) (m * nT) (ts.map (finerT m)) := by
  refine ⟨fun t ht => ?_, fun t ht => ?_⟩
  · obtain ⟨u, hu, rfl⟩ := List.mem_map.1 ht
    exact (genuine_finerT hm).2 (h.genuine u hu)
  · obtain ⟨u, rfl⟩ := genuine_finer hm ht
    have hu := (genuine_finerT hm).1 ht
    rw [List.mem_map_of_injective (finerT_injective hm), h.rule u hu, earlier_map_finer hm]
    refine and_congr ?_ (not_congr ?_)
    · constructor
      · intro H v hv
        obtain ⟨w, hw, rfl⟩ := List.mem_map.1 hv
        rintro ⟨h1, p, h2, h3⟩
        obtain ⟨q, rfl⟩ := touches_finer h2
        exact H w hw ⟨h1, q, (touches_finerT hm).1 h2, (touches_finerT hm).1 h3⟩
      · rintro H w hw ⟨h1, p, h2, h3⟩
        exact H _ (List.mem_map_of_mem hw) ⟨h1, _, (touches_finerT hm).2 h2, (touches_finerT hm).2 h3⟩
    · constructor
      · intro H p hp
        obtain ⟨q, rfl⟩ := touches_finer hp
        rw [leftover_finer hm, leftover_finer hm]
        exact H q ((touches_finerT hm).1 hp)
      · intro H q hq
        have := H _ ((touches_finerT hm).2 hq)
        rwa [leftover_finer hm, leftover_finer hm] at this

theorem transposedAt_mem {ts us : List Transposition} (h : ∀ t, t ∈ ts ↔ t ∈ us) (p : ℕ) :
    transposedAt ts p = transposedAt us p :=
  transposedAt_congr fun d => by simp only [h]

theorem flatMap_finer {β : Type _} (hm : 1 ≤ m) (f : ℕ → List β) (h : ∀ p, ¬ m ∣ p + 1 → f p = [])
    (n : ℕ) :
    (List.range (m * (n + 1) - 1)).flatMap f = (List.range n).flatMap (fun p => f (finerPos m p)) := by
  have base : ∀ k, k < m → ∀ n, (List.range k).flatMap (fun j => f (m * n + j)) = [] := by
    intro k hk n
    rw [List.flatMap_eq_nil_iff]
    intro j hj
    rw [List.mem_range] at hj
    refine h _ fun hd => ?_
    have := (Nat.dvd_add_right (Nat.dvd_mul_right m n)).1 (by simpa [Nat.add_assoc] using hd)
    have := Nat.le_of_dvd (by omega) this
    omega
  induction n with
  | zero =>
    have := base (m - 1) (by omega) 0
    simpa using this
  | succ n ih =>
    have e : m * (n + 1 + 1) - 1 = (m * (n + 1) - 1) + (1 + (m - 1)) := by
      have : m * (n + 1 + 1) = m * (n + 1) + m := by ring
      have : 1 ≤ m * (n + 1) := Nat.mul_pos hm (by omega)
      omega
    rw [e, List.range_add, List.flatMap_append, ih, List.range_succ, List.flatMap_append,
      List.flatMap_map, List.range_add, List.flatMap_append, List.flatMap_map]
    congr 1
    have h1 : 1 ≤ m * (n + 1) := Nat.mul_pos hm (by omega)
    have : (List.range (m - 1)).flatMap (fun j => f (m * (n + 1) - 1 + (1 + j))) = [] := by
      rw [← base (m - 1) (by omega) (n + 1)]
      congr 1
      funext j
      rw [show m * (n + 1) - 1 + (1 + j) = m * (n + 1) + j by omega]
    rw [this]
    simp [finerPos]

/-- The edits are those in the former units, moved. -/
theorem edits_scaled {rt : Runtime} (hm : 1 ≤ m) (hl : a.length = b.length) (hs : SharedTypes rt a b) :
    (editsOf rt (finer m ∅ a) (finer m ∅ b) (m * nT)).transpositions.Perm
      ((editsOf rt a b nT).transpositions.map (finerT m)) ∧
    (editsOf rt (finer m ∅ a) (finer m ∅ b) (m * nT)).additions.Perm (editsOf rt a b nT).additions ∧
    (editsOf rt (finer m ∅ a) (finer m ∅ b) (m * nT)).substitutions.Perm
      (editsOf rt a b nT).substitutions := by
  have hL : (finer m ∅ a).length = (finer m ∅ b).length := by
    have h1 := finer_length (d := (∅ : Finset ℤ)) hm a
    have h2 := finer_length (d := (∅ : Finset ℤ)) hm b
    rw [hl] at h1; omega
  have hs' := sharedTypes_finer hm hs
  have hmem := (allT_chosen hL hs' (m * nT)).mem_iff (chosen_finer hm (allT_chosen hl hs nT))
  have hlen : (finer m ∅ a).length = m * (a.length + 1) - 1 := by
    have := finer_length (d := (∅ : Finset ℤ)) hm a
    omega
  have left : ∀ p, leftover (finer m ∅ a) (finer m ∅ b) (allT rt (finer m ∅ a) (finer m ∅ b) (m * nT))
      (finerPos m p) = leftover a b (allT rt a b nT) p := by
    intro p
    rw [leftover, leftover, onlyIn_finerPos hm, transposedAt_mem hmem, transposedAt_finer hm]
  have right : ∀ p, leftover (finer m ∅ b) (finer m ∅ a) (allT rt (finer m ∅ a) (finer m ∅ b) (m * nT))
      (finerPos m p) = leftover b a (allT rt a b nT) p := by
    intro p
    rw [leftover, leftover, onlyIn_finerPos hm, transposedAt_mem hmem, transposedAt_finer hm]
  refine ⟨?_, ?_, ?_⟩
  · have hn := disjoint_nodup (allT_disjoint (le_of_eq hL) hs' (m * nT))
    have hn' := disjoint_nodup (allT_disjoint (le_of_eq hl) hs nT)
    exact (List.perm_ext_iff_of_nodup hn (hn'.map (finerT_injective hm))).2 hmem
  · simp only [editsOf]
    rw [hlen, flatMap_finer hm]
    · refine flatMap_perm _ fun p _ => ?_
      rw [left, right]
      exact addsOf_perm' _ _ _ _ _ _
    · intro p hp
      obtain ⟨l1, l2⟩ := leftover_empty_of_missed (missed_finer (a := a) (b := b) hm hp)
        (allT rt (finer m ∅ a) (finer m ∅ b) (m * nT))
      rw [l1, l2, addsOf_empty]
  · simp only [editsOf]
    rw [hlen, flatMap_finer hm]
    · refine flatMap_perm _ fun p _ => ?_
      rw [left, right]
      exact subsOf_perm' _ _ _ _ _ _
    · intro p hp
      obtain ⟨l1, l2⟩ := leftover_empty_of_missed (missed_finer (a := a) (b := b) hm hp)
        (allT rt (finer m ∅ a) (finer m ∅ b) (m * nT))
      rw [l1, l2, subsOf_empty]

theorem balanced_finer {rt : Runtime} (hm : 1 ≤ m) (hl : a.length = b.length) (hs : SharedTypes rt a b) :
    (∀ p < (finer m ∅ a).length, Balanced (finer m ∅ a) (finer m ∅ b)
      (allT rt (finer m ∅ a) (finer m ∅ b) (m * nT)) p) ↔
    ∀ p < a.length, Balanced a b (allT rt a b nT) p := by
  have hL : (finer m ∅ a).length = (finer m ∅ b).length := by
    have h1 := finer_length (d := (∅ : Finset ℤ)) hm a
    have h2 := finer_length (d := (∅ : Finset ℤ)) hm b
    rw [hl] at h1; omega
  have hmem := (allT_chosen hL (sharedTypes_finer hm hs) (m * nT)).mem_iff
    (chosen_finer hm (allT_chosen hl hs nT))
  have key : ∀ p, Balanced (finer m ∅ a) (finer m ∅ b) (allT rt (finer m ∅ a) (finer m ∅ b) (m * nT))
      (finerPos m p) ↔ Balanced a b (allT rt a b nT) p := by
    intro p
    simp only [Balanced, leftover, onlyIn_finerPos hm, transposedAt_mem hmem, transposedAt_finer hm]
  constructor
  · intro H p hp
    exact (key p).1 (H _ ((finerPos_lt_length hm).2 hp))
  · intro H p hp
    by_cases hd : m ∣ p + 1
    · obtain ⟨q, rfl⟩ := exists_finerPos hd
      exact (key q).2 (H q ((finerPos_lt_length hm).1 hp))
    · obtain ⟨l1, l2⟩ := leftover_empty_of_missed (missed_finer (a := a) (b := b) hm hd)
        (allT rt (finer m ∅ a) (finer m ∅ b) (m * nT))
      rw [Balanced, l1, l2]; simp

theorem finerT_cost (hm : 1 ≤ m) (t : Transposition) :
    transpositionCost (m * nT) (finerT m t) = transpositionCost nT t := by
  have h1 : (finerPos m t.start : ℚ) + 1 = m * (t.start + 1) := by exact_mod_cast finerPos_succ hm t.start
  have h2 : (finerPos m t.stop : ℚ) + 1 = m * (t.stop + 1) := by exact_mod_cast finerPos_succ hm t.stop
  simp only [transpositionCost, finerT]
  rw [show (finerPos m t.stop : ℚ) - finerPos m t.start = m * ((t.stop : ℚ) - t.start) by linarith]
  push_cast
  exact mul_div_mul_left _ _ (by positivity)

theorem cost_scaled {rt : Runtime} (hm : 1 ≤ m) (hl : a.length = b.length) (hs : SharedTypes rt a b)
    (mx mn : ℤ) :
    scriptCost (m * nT) mx mn (editsOf rt (finer m ∅ a) (finer m ∅ b) (m * nT)) =
      scriptCost nT mx mn (editsOf rt a b nT) ∧
    editCount (editsOf rt (finer m ∅ a) (finer m ∅ b) (m * nT)) = editCount (editsOf rt a b nT) := by
  obtain ⟨p1, p2, p3⟩ := edits_scaled (nT := nT) hm hl hs
  constructor
  · rw [scriptCost, scriptCost, (p1.map _).sum_eq, p2.length_eq, (p3.map _).sum_eq, List.map_map]
    congr 3
    funext t
    exact finerT_cost hm t
  · rw [editCount, editCount, p1.length_eq, p2.length_eq, p3.length_eq, List.length_map]

theorem matchCount_finer (hm : 1 ≤ m) :
    matchCount (finer m ∅ a) (finer m ∅ b) = matchCount a b := by
  have hi := finerAt_injective hm
  rw [matches_card, matches_card, boundaries_finer hm, boundaries_finer hm, ← Finset.image_inter _ _ hi,
    Finset.card_image_of_injective _ hi]

end SegEval
