import Verif.Spec.Finer
import Verif.Lemmas.Wider
import Verif.Lemmas.OneBoundarySteps
import Verif.Lemmas.Joined

/-!
# Documents counted in smaller units
-/

namespace SegEval

open Spec

section
variable {α : Type _} {m : ℕ} {d : α}

theorem finer_cons (x : α) (l : List α) :
    finer m d (x :: l) = List.replicate (m - 1) d ++ x :: finer m d l := by
  simp [finer]

theorem finer_append (p q : List α) (x : α) :
    finer m d (p ++ x :: q) = finer m d p ++ x :: finer m d q := by
  simp [finer]

theorem finer_length (hm : 1 ≤ m) (l : List α) : (finer m d l).length + 1 = m * (l.length + 1) := by
  induction l with
  | nil => simp [finer]; omega
  | cons x l ih =>
    rw [finer_cons, List.length_append, List.length_replicate, List.length_cons, ih, List.length_cons]
    rw [show m * (l.length + 1 + 1) = m * (l.length + 1) + m by ring]
    omega

theorem finer_map {β : Type _} (f : α → β) (l : List α) :
    (finer m d l).map f = finer m (f d) (l.map f) := by
  induction l with
  | nil => simp [finer]
  | cons x l ih => rw [finer_cons, List.map_cons, finer_cons, ← ih]; simp

theorem finer_replicate (hm : 1 ≤ m) (n : ℕ) :
    finer m d (List.replicate n d) = List.replicate (m * (n + 1) - 1) d := by
  have h : ∀ y ∈ finer m d (List.replicate n d), y = d := by
    intro y hy
    simp only [finer, List.mem_append, List.mem_flatMap, List.mem_replicate, List.mem_cons] at hy
    rcases hy with ⟨-, rfl⟩ | ⟨z, ⟨-, rfl⟩, rfl | ⟨-, rfl⟩⟩ <;> rfl
  rw [List.eq_replicate_of_mem h]
  congr 1
  have := finer_length (d := d) hm (List.replicate n d)
  rw [List.length_replicate] at this
  omega

end

/-- As many boundaries are before a small unit as before the unit that it is part of. -/
theorem count_finer {m : ℕ} (hm : 1 ≤ m) (p : List Bool) (i : ℕ) :
    ((finer m false p).take i).count true = (p.take (i / m)).count true := by
  induction p generalizing i with
  | nil => simp [finer, List.take_replicate, List.count_replicate]
  | cons x p ih =>
    rw [finer_cons]
    rcases Nat.lt_or_ge i m with h | h
    · rw [Nat.div_eq_of_lt h, List.take_append_of_le_length (by simp; omega)]
      simp [List.take_replicate, List.count_replicate]
    · obtain ⟨j, rfl⟩ := Nat.exists_eq_add_of_le h
      rw [Nat.add_div_left _ (by omega), List.take_append, List.length_replicate,
        show m + j - (m - 1) = j + 1 by omega, List.take_succ_cons, List.take_succ_cons,
        List.count_append, List.count_cons, List.count_cons, ih]
      simp [List.take_replicate, List.count_replicate]

theorem between_eq_sub (p : List Bool) (i k : ℕ) :
    between p i k = (p.take (i + k)).count true - (p.take i).count true := by
  rw [between, List.take_add, List.count_append]
  omega

theorem between_finer {m : ℕ} (hm : 1 ≤ m) (p : List Bool) (i k : ℕ) :
    between (finer m false p) i (m * k) = between p (i / m) k := by
  rw [between_eq_sub, between_eq_sub, count_finer hm, count_finer hm, Nat.add_mul_div_left _ _ (by omega)]

/-- What holds of a unit holds of its `m` parts. -/
theorem card_finer {m : ℕ} (hm : 1 ≤ m) (P : ℕ → Prop) [DecidablePred P] (n : ℕ) :
    ((Finset.range (m * n)).filter (fun i => P (i / m))).card =
      m * ((Finset.range n).filter P).card := by
  induction n with
  | zero => simp
  | succ n ih =>
    rw [Finset.card_filter, Finset.card_filter] at ih ⊢
    rw [Nat.mul_succ, Finset.sum_range_add, ih, Finset.sum_range_succ, Nat.mul_add]
    congr 1
    rw [Finset.sum_congr rfl (g := fun _ => if P n then 1 else 0)]
    · simp
    · intro x hx
      rw [Finset.mem_range] at hx
      rw [Nat.mul_add_div (by omega), Nat.div_eq_of_lt hx, Nat.add_zero]

theorem windows_finer {m : ℕ} (hm : 1 ≤ m) (p : List Bool) (k : ℕ) :
    windows ((finer m false p).length + 1) (m * k) = m * windows (p.length + 1) k := by
  rw [finer_length hm, windows, windows, Nat.mul_sub]

theorem pkErrors_finer {m : ℕ} (hm : 1 ≤ m) (p q : List Bool) (k : ℕ) :
    (pkErrors (finer m false p) (finer m false q) (m * k)).card = m * (pkErrors p q k).card := by
  unfold pkErrors
  rw [windows_finer hm, ← card_finer hm]
  congr 1
  refine Finset.filter_congr fun i _ => ?_
  unfold PkError
  rw [between_finer hm, between_finer hm]

theorem wdErrors_finer {m : ℕ} (hm : 1 ≤ m) (p q : List Bool) (k : ℕ) :
    (wdErrors (finer m false p) (finer m false q) (m * k)).card = m * (wdErrors p q k).card := by
  unfold wdErrors
  rw [windows_finer hm, ← card_finer hm]
  congr 1
  refine Finset.filter_congr fun i _ => ?_
  unfold WdError
  rw [between_finer hm, between_finer hm]

theorem padded_finer {m k : ℕ} (hm : 1 ≤ m) (hk : 1 ≤ k) (p : List Bool) :
    padded (m * k) (finer m false p) = finer m false (padded k p) := by
  have e : finer m false (List.replicate (k - 1) false) = List.replicate (m * k - 1) false := by
    rw [finer_replicate hm, Nat.sub_add_cancel hk]
  have h : padded k p = List.replicate (k - 1) false ++ true :: (p ++ true :: List.replicate (k - 1) false) := by
    simp [padded]
  rw [h, finer_append, finer_append, e]
  simp [padded]

theorem massPat_finer {m : ℕ} (hm : 1 ≤ m) (l : List ℤ) (hl : l ≠ []) (h : ∀ x ∈ l, 0 < x) :
    massPat (l.map (fun x => (m : ℤ) * x)) = finer m false (massPat l) := by
  have one : ∀ x : ℤ, 0 < x → List.replicate ((m : ℤ) * x - 1).toNat false =
      finer m false (List.replicate (x - 1).toNat false) := by
    intro x hx
    rw [finer_replicate hm]
    congr 1
    obtain ⟨n, rfl⟩ := Int.eq_ofNat_of_zero_le hx.le
    have : (n : ℤ) - 1 = ((n - 1 : ℕ) : ℤ) := by omega
    rw [this, Int.toNat_natCast, Nat.sub_add_cancel (by omega)]
    have : 1 ≤ m * n := Nat.mul_pos hm (by omega)
    rw [show (m : ℤ) * n - 1 = ((m * n - 1 : ℕ) : ℤ) by push_cast [Nat.cast_sub this]; ring,
      Int.toNat_natCast]
  induction l with
  | nil => exact absurd rfl hl
  | cons x l ih =>
    by_cases he : l = []
    · subst he
      simpa [massPat] using one x (h x (by simp))
    · rw [List.map_cons, massPat_cons _ _ (by simpa using he), massPat_cons _ _ he, finer_append,
        ih he (fun y hy => h y (by simp [hy])), one x (h x (by simp))]

/-! ## Boundary strings -/

theorem typesAt_finer {m : ℕ} (hm : 1 ≤ m) (s : BString) (p : ℕ) :
    typesAt (finer m ∅ s) p = if (p + 1) % m = 0 then typesAt s ((p + 1) / m - 1) else ∅ := by
  induction s generalizing p with
  | nil =>
    have : ∀ q, typesAt ([] : BString) q = ∅ := fun q => rfl
    rw [this, ite_self, finer, List.flatMap_nil, List.append_nil, typesAt, List.getElem?_replicate]
    split <;> rfl
  | cons x s ih =>
    rw [finer_cons]
    rcases Nat.lt_trichotomy (p + 1) m with h | h | h
    · rw [Nat.mod_eq_of_lt h, if_neg (by omega), typesAt, List.getElem?_append_left (by simp; omega),
        List.getElem?_replicate, if_pos (by omega)]
      rfl
    · rw [h, Nat.mod_self, if_pos rfl, Nat.div_self (by omega), typesAt,
        List.getElem?_append_right (by simp; omega), List.length_replicate, show p - (m - 1) = 0 by omega]
      rfl
    · obtain ⟨j, rfl⟩ : ∃ j, p = m + j := ⟨p - m, by omega⟩
      have hp : typesAt (List.replicate (m - 1) ∅ ++ x :: finer m ∅ s) (m + j) =
          typesAt (finer m ∅ s) j := by
        rw [typesAt, List.getElem?_append_right (by simp; omega), List.length_replicate,
          show m + j - (m - 1) = j + 1 by omega]
        rfl
      rw [hp, ih, show m + j + 1 = m + (j + 1) by ring, Nat.add_mod_left,
        Nat.add_div_left _ (by omega)]
      split
      · rename_i h0
        have : 1 ≤ (j + 1) / m := by
          have := Nat.div_add_mod (j + 1) m
          rw [h0] at this
          rcases Nat.eq_zero_or_pos ((j + 1) / m) with h | h
          · rw [h] at this; omega
          · exact h
        obtain ⟨q, hq⟩ := Nat.exists_eq_add_of_le this
        rw [hq]
        simp only [Nat.add_sub_cancel, Nat.add_sub_cancel_left]
        rw [Nat.add_comm 1 q]
        rfl
      · rfl

/-- Where a boundary comes to lie. -/
def finerAt (m : ℕ) (x : ℕ × ℤ) : ℕ × ℤ := (m * (x.1 + 1) - 1, x.2)

theorem finerAt_injective {m : ℕ} (hm : 1 ≤ m) : Function.Injective (finerAt m) := by
  rintro ⟨p, t⟩ ⟨q, u⟩ h
  rw [finerAt, finerAt, Prod.mk.injEq] at h
  simp only at h
  have h1 : 1 ≤ m * (p + 1) := Nat.mul_pos hm (by omega)
  have h2 : 1 ≤ m * (q + 1) := Nat.mul_pos hm (by omega)
  have : m * (p + 1) = m * (q + 1) := by omega
  have := Nat.eq_of_mul_eq_mul_left (by omega) this
  exact Prod.ext (by simp only; omega) h.2

theorem boundaries_finer {m : ℕ} (hm : 1 ≤ m) (s : BString) :
    boundaries (finer m ∅ s) = (boundaries s).image (finerAt m) := by
  ext ⟨p, t⟩
  rw [mem_boundaries, typesAt_finer hm, Finset.mem_image]
  simp only
  constructor
  · intro h
    split at h
    · rename_i h0
      have hd := Nat.div_add_mod (p + 1) m
      rw [h0] at hd
      have h1 : 1 ≤ (p + 1) / m := by
        rcases Nat.eq_zero_or_pos ((p + 1) / m) with h | h
        · rw [h] at hd; omega
        · exact h
      refine ⟨((p + 1) / m - 1, t), mem_boundaries.2 h, ?_⟩
      rw [finerAt, Nat.sub_add_cancel h1]
      exact Prod.ext (by simp only; omega) rfl
    · simp at h
  · rintro ⟨⟨q, u⟩, hq, he⟩
    rw [finerAt, Prod.mk.injEq] at he
    simp only at he
    have h1 : 1 ≤ m * (q + 1) := Nat.mul_pos hm (by omega)
    have h2 : p + 1 = m * (q + 1) := by omega
    rw [h2, Nat.mul_mod_right, if_pos rfl, Nat.mul_div_cancel_left _ (by omega), Nat.add_sub_cancel,
      ← he.2]
    exact mem_boundaries.1 hq

theorem oneSided_finer {m : ℕ} (hm : 1 ≤ m) {a b : BString} (h : OneSided a b) :
    OneSided (finer m ∅ a) (finer m ∅ b) := by
  intro p
  unfold onlyIn
  rw [typesAt_finer hm, typesAt_finer hm]
  split
  · exact h _
  · simp

theorem sharedTypes_finer {m : ℕ} (hm : 1 ≤ m) {rt : Runtime} {a b : BString}
    (h : SharedTypes rt a b) : SharedTypes rt (finer m ∅ a) (finer m ∅ b) := by
  intro p t ht
  unfold missedAt onlyIn at ht
  rw [typesAt_finer hm, typesAt_finer hm] at ht
  split at ht
  · exact h _ t ht
  · simp at ht

/-- A boundary only one string has is at the end of a former unit. -/
theorem onlyIn_finer {m : ℕ} (hm : 1 ≤ m) {a b : BString} {p : ℕ} {t : ℤ}
    (h : t ∈ onlyIn (finer m ∅ a) (finer m ∅ b) p) : m ∣ p + 1 := by
  unfold onlyIn at h
  rw [typesAt_finer hm] at h
  split at h
  · exact Nat.dvd_of_mod_eq_zero ‹_›
  · simp at h

theorem no_transpositions_finer {m : ℕ} (hm : 1 ≤ m) {a b : BString} {nT : ℤ} (hn : nT ≤ m)
    {t : Transposition} : ¬ Genuine (finer m ∅ a) (finer m ∅ b) nT t := by
  intro h
  have hd : m ∣ t.start + 1 ∧ m ∣ t.stop + 1 := by
    rcases h.moves with ⟨h1, h2⟩ | ⟨h1, h2⟩
    · exact ⟨onlyIn_finer hm h1, onlyIn_finer hm h2⟩
    · exact ⟨onlyIn_finer hm h1, onlyIn_finer hm h2⟩
  have ho := h.ordered
  have hs := h.span
  have := Nat.dvd_sub hd.2 hd.1
  have := Nat.le_of_dvd (by omega) this
  omega

end SegEval
