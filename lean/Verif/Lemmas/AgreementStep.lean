import Verif.Lemmas.OneBoundarySteps
import Verif.Lemmas.AgreementForm
import Verif.Spec.AgreementStep

/-!
# Changed boundaries and pooled comparisons

The parts of one comparison change by at most the number of boundaries changed in its two strings, and
pooling bounds the change of the quotient of the sums.
-/

namespace SegEval

open Spec

/-- What the matches and transpositions of two strings are worth. -/
noncomputable def plainCredit (rt : Runtime) (nT : ℤ) (a b : BString) : ℚ :=
  matchCount a b + transpositionCredit nT (editsOf rt a b nT).transpositions

/-- The number of edits and matches of two strings. -/
noncomputable def plainSize (rt : Runtime) (nT : ℤ) (a b : BString) : ℚ :=
  editCount (editsOf rt a b nT) + matchCount a b

theorem plain_sum (rt : Runtime) (nT : ℤ) (a b : BString) :
    plainSize rt nT a b - plainCredit rt nT a b = plainCost rt nT a b := by
  rw [plainSize, plainCredit, plainCost]; ring

section
variable {rt : Runtime} {t nT : ℤ} (ht : smallInt t = true ∨ ∀ site, rt.sameObj site t = true)
include ht

theorem only_credit {a c b : BString} (hb : Only t b) (hla : a.length = b.length)
    (hlc : c.length = b.length) (ha : Only t a) (hc : Only t c) :
    |plainCredit rt nT a b - plainCredit rt nT c b| ≤ changed a c := by
  have := chain (t := t) (n := b.length) (b := 1) (fun s => plainCredit rt nT s b) (fun a a' p hl h h' hm => by
    obtain ⟨h1, h2, -⟩ := one_more hm hl (only_shared h hb ht) (only_shared h' hb ht)
      (oneSided_of_oneType h hb) (oneSided_of_oneType h' hb) (only_edits h hb hl nT)
      (only_edits h' hb (hm.length.trans hl) nT)
    rw [plainCredit, plainCredit, abs_le]
    constructor <;> linarith) _ a c hla hlc ha hc rfl
  simpa using this

theorem only_comm {a b : BString} (ha : Only t a) (hb : Only t b) (hl : a.length = b.length) :
    plainCredit rt nT a b = plainCredit rt nT b a ∧ plainCost rt nT a b = plainCost rt nT b a := by
  obtain ⟨h1, h2, h3, h4, -⟩ := Props.C11_symmetric rt rt a b hl nT (only_shared ha hb ht)
    (only_shared ha hb ht) _ _ (only_edits ha hb hl nT) (only_edits hb ha hl.symm nT)
  have hc : transpositionCredit nT (editsOf rt a b nT).transpositions =
      transpositionCredit nT (editsOf rt b a nT).transpositions := (h1.map _).sum_eq
  have hsplit : ∀ l : List Addition, l.length = l.countP (fun x => decide (x.side = .a)) +
      l.countP (fun x => decide (x.side = .b)) := by
    intro l
    induction l with
    | nil => rfl
    | cons x l ih =>
      rw [List.length_cons, List.countP_cons, List.countP_cons]
      cases x.side <;> simp <;> omega
  have he : editCount (editsOf rt a b nT) = editCount (editsOf rt b a nT) := by
    rw [editCount, editCount, hsplit (editsOf rt a b nT).additions,
      hsplit (editsOf rt b a nT).additions, h1.length_eq]
    omega
  exact ⟨by rw [plainCredit, plainCredit, hc, matchCount_comm hl], by rw [plainCost, plainCost, hc, he]⟩

/-- Both strings may change. -/
theorem only_parts {a a' b b' : BString} (hl : a.length = b.length) (hla : a'.length = a.length)
    (hlb : b'.length = b.length) (ha : Only t a) (ha' : Only t a') (hb : Only t b) (hb' : Only t b') :
    |plainCredit rt nT a b - plainCredit rt nT a' b'| ≤ changed a a' + changed b b' ∧
    |plainCost rt nT a b - plainCost rt nT a' b'| ≤ changed a a' + changed b b' := by
  have hl' : a'.length = b.length := hla.trans hl
  have hl'' : a'.length = b'.length := hl'.trans hlb.symm
  constructor
  · refine (abs_sub_le _ (plainCredit rt nT a' b) _).trans
      (add_le_add (only_credit ht hb hl hl' ha ha') ?_)
    rw [(only_comm ht ha' hb hl').1, (only_comm ht ha' hb' hl'').1]
    exact only_credit ht ha' hl'.symm hl''.symm hb hb'
  · refine (abs_sub_le _ (plainCost rt nT a' b) _).trans
      (add_le_add (only_cost nT hb ht hl hl' ha ha') ?_)
    rw [(only_comm ht ha' hb hl').2, (only_comm ht ha' hb' hl'').2]
    exact only_cost nT ha' ht hl'.symm hl''.symm hb hb'

theorem only_range {a b : BString} (hl : a.length = b.length) (ha : Only t a) (hb : Only t b) :
    0 ≤ plainCredit rt nT a b ∧ 0 ≤ plainCost rt nT a b ∧
    (boundaryCount a : ℚ) ≤ plainSize rt nT a b ∧ (boundaryCount b : ℚ) ≤ plainSize rt nT a b := by
  have he := only_edits (rt := rt) ha hb hl nT
  have c0 := credit_nonneg hl he
  have c1 := cost_nonneg hl he
  obtain ⟨g1, g2⟩ := edits_ge hl (only_shared ha hb ht) he
  have hm : (0 : ℚ) ≤ matchCount a b := by positivity
  refine ⟨by rw [plainCredit]; linarith, by rw [plainCost]; linarith, ?_, ?_⟩
  · rw [plainSize]; exact_mod_cast g1
  · rw [plainSize]; exact_mod_cast g2

end

open Chain in
theorem cost_le_length {rt : Runtime} {nT : ℤ} {a b : BString} (hl : a.length = b.length) (ha : Only 1 a) (hb : Only 1 b) :
    plainCost rt nT a b ≤ b.length := by
  have he := only_edits (rt := rt) ha hb hl nT
  have h1 := (edits_misses hl (only_shared ha hb (.inl (by decide))) (oneSided_of_oneType ha hb) he).1
  have h2 : (misses a b).card ≤ b.length := by
    rw [← Finset.card_range b.length]
    refine Finset.card_le_card_of_injOn Prod.fst (fun x hx => ?_) (fun x hx y hy hxy => ?_)
    · have := (mem_misses hl).1 hx
      rw [missedAt, Finset.mem_union, onlyIn, onlyIn, Finset.mem_sdiff, Finset.mem_sdiff] at this
      exact Finset.mem_coe.2 (Finset.mem_range.2
        (this.elim (fun g => hl ▸ typesAt_lt g.1) fun g => typesAt_lt g.1))
    · have e1 := Finset.mem_singleton.1 (only_missed ha hb _ ((mem_misses hl).1 hx))
      have e2 := Finset.mem_singleton.1 (only_missed ha hb _ ((mem_misses hl).1 hy))
      exact Prod.ext hxy (e1.trans e2.symm)
  have h3 := credit_nonneg hl he
  have h4 : (editCount (editsOf rt a b nT) : ℚ) ≤ b.length := by
    exact_mod_cast (by omega : editCount (editsOf rt a b nT) ≤ b.length)
  rw [plainCost]
  linarith

/-! ## Pooling -/

theorem sum_pairs {ι : Type*} [DecidableEq ι] (C : Finset ι) (f : ι → ℚ) :
    ∑ m ∈ C, ∑ n ∈ C.erase m, (f m + f n) = 2 * (C.card - 1) * ∑ m ∈ C, f m := by
  have h1 : ∀ m ∈ C, ∑ n ∈ C.erase m, (f m + f n) = (C.card - 1) * f m + (∑ n ∈ C, f n - f m) := by
    intro m hm
    have hc : 1 ≤ C.card := Finset.card_pos.2 ⟨m, hm⟩
    rw [Finset.sum_add_distrib, Finset.sum_const, Finset.card_erase_of_mem hm, nsmul_eq_mul,
      Nat.cast_sub hc, Finset.sum_erase_eq_sub hm]
    push_cast; ring
  rw [Finset.sum_congr rfl h1, Finset.sum_add_distrib, Finset.sum_sub_distrib, ← Finset.mul_sum,
    Finset.sum_const, nsmul_eq_mul]
  ring

section
variable {ι κ : Type*} [DecidableEq ι] (C : Finset ι) (L : Finset κ)

/-- The sum over ordered pairs of coders and all labels. -/
def overPairs (G : κ → ι → ι → ℚ) : ℚ := ∑ m ∈ C, ∑ n ∈ C.erase m, ∑ l ∈ L, G l m n

variable {C L} {N D N' D' : κ → ι → ι → ℚ}

theorem overPairs_le {G H : κ → ι → ι → ℚ} (h : ∀ l ∈ L, ∀ m ∈ C, ∀ n ∈ C, m ≠ n → G l m n ≤ H l m n) :
    overPairs C L G ≤ overPairs C L H :=
  Finset.sum_le_sum fun m hm => Finset.sum_le_sum fun n hn => Finset.sum_le_sum fun l hl =>
    h l hl m hm n (Finset.mem_of_mem_erase hn) (Finset.ne_of_mem_erase hn).symm

theorem overPairs_pos {G : κ → ι → ι → ℚ} (hC : 2 ≤ C.card) (hL : L.Nonempty)
    (h : ∀ l ∈ L, ∀ m ∈ C, ∀ n ∈ C, m ≠ n → 0 < G l m n) : 0 < overPairs C L G := by
  refine Finset.sum_pos (fun m hm => Finset.sum_pos (fun n hn => Finset.sum_pos (fun l hl =>
    h l hl m hm n (Finset.mem_of_mem_erase hn) (Finset.ne_of_mem_erase hn).symm) hL) ?_) ?_
  · rw [← Finset.card_pos, Finset.card_erase_of_mem hm]; omega
  · rw [← Finset.card_pos]; omega

theorem overPairs_sub (G H : κ → ι → ι → ℚ) :
    overPairs C L G - overPairs C L H = overPairs C L (fun l m n => G l m n - H l m n) := by
  simp only [overPairs, Finset.sum_sub_distrib]

theorem overPairs_abs (G : κ → ι → ι → ℚ) :
    |overPairs C L G| ≤ overPairs C L (fun l m n => |G l m n|) :=
  (Finset.abs_sum_le_sum_abs _ _).trans (Finset.sum_le_sum fun _ _ =>
    (Finset.abs_sum_le_sum_abs _ _).trans (Finset.sum_le_sum fun _ _ => Finset.abs_sum_le_sum_abs _ _))

theorem overPairs_each (f : κ → ι → ℚ) :
    overPairs C L (fun l m n => f l m + f l n) = 2 * (C.card - 1) * ∑ l ∈ L, ∑ m ∈ C, f l m := by
  rw [overPairs]
  have : ∀ m n, ∑ l ∈ L, (f l m + f l n) = (∑ l ∈ L, f l m) + ∑ l ∈ L, f l n :=
    fun m n => Finset.sum_add_distrib
  simp only [this]
  rw [sum_pairs, Finset.sum_comm]

theorem overPairs_change {G H : κ → ι → ι → ℚ} {δ : κ → ι → ℚ}
    (h : ∀ l ∈ L, ∀ m ∈ C, ∀ n ∈ C, m ≠ n → |G l m n - H l m n| ≤ δ l m + δ l n) :
    |overPairs C L G - overPairs C L H| ≤ 2 * (C.card - 1) * ∑ l ∈ L, ∑ m ∈ C, δ l m := by
  rw [overPairs_sub, ← overPairs_each]
  exact (overPairs_abs _).trans (overPairs_le h)

/-- The quotient of pooled numerators and denominators changes little. -/
theorem pooled_close (hC : 2 ≤ C.card) {β δ : κ → ι → ℚ}
    (hN : ∀ l ∈ L, ∀ m ∈ C, ∀ n ∈ C, m ≠ n → |N l m n - N' l m n| ≤ δ l m + δ l n)
    (hM : ∀ l ∈ L, ∀ m ∈ C, ∀ n ∈ C, m ≠ n →
      |(D l m n - N l m n) - (D' l m n - N' l m n)| ≤ δ l m + δ l n)
    (h0 : ∀ l ∈ L, ∀ m ∈ C, ∀ n ∈ C, m ≠ n → 0 ≤ N' l m n)
    (h1 : ∀ l ∈ L, ∀ m ∈ C, ∀ n ∈ C, m ≠ n → N' l m n ≤ D' l m n)
    (hβ : ∀ l ∈ L, ∀ m ∈ C, ∀ n ∈ C, m ≠ n → β l m + β l n ≤ 2 * D l m n)
    (hD : 0 < overPairs C L D) (hD' : 0 < overPairs C L D')
    (hpos : 0 < ∑ l ∈ L, ∑ m ∈ C, β l m) :
    |overPairs C L N / overPairs C L D - overPairs C L N' / overPairs C L D'| ≤
      2 * (∑ l ∈ L, ∑ m ∈ C, δ l m) / ∑ l ∈ L, ∑ m ∈ C, β l m := by
  have a1 := overPairs_change hN
  have a2 := overPairs_change (G := fun l m n => D l m n - N l m n)
    (H := fun l m n => D' l m n - N' l m n) hM
  rw [← overPairs_sub, ← overPairs_sub] at a2
  have a3 := overPairs_le (G := fun _ _ _ => 0) h0
  have a4 := overPairs_le h1
  have a5 := overPairs_le hβ
  rw [overPairs_each] at a5
  have z : overPairs C L (fun _ _ _ => 0) = 0 := by simp [overPairs]
  have z2 : overPairs C L (fun l m n => 2 * D l m n) = 2 * overPairs C L D := by
    simp only [overPairs, ← Finset.mul_sum]
  rw [z] at a3
  rw [z2] at a5
  set SN := overPairs C L N
  set SD := overPairs C L D
  set SN' := overPairs C L N'
  set SD' := overPairs C L D'
  set Δ := ∑ l ∈ L, ∑ m ∈ C, δ l m
  set B := ∑ l ∈ L, ∑ m ∈ C, β l m
  have hc : (0 : ℚ) < C.card - 1 := by
    have : (2 : ℚ) ≤ C.card := by exact_mod_cast hC
    linarith
  set c : ℚ := C.card - 1
  set A' := SN' / SD' with hA'
  have A0 : 0 ≤ A' := div_nonneg a3 hD'.le
  have A1 : A' ≤ 1 := div_le_one_of_le₀ a4 hD'.le
  have hSN' : SN' = A' * SD' := by rw [hA', div_mul_cancel₀ _ hD'.ne']
  have hdiff : SN / SD - A' = ((1 - A') * (SN - SN') - A' * ((SD - SN) - (SD' - SN'))) / SD := by
    rw [eq_div_iff hD.ne', sub_mul, div_mul_cancel₀ _ hD.ne', hSN']
    ring
  have hΔ : |(1 - A') * (SN - SN') - A' * ((SD - SN) - (SD' - SN'))| ≤ 2 * c * Δ := by
    have b1 := abs_le.1 a1
    have b2 := abs_le.1 a2
    rw [abs_le]
    constructor <;> nlinarith [mul_le_mul_of_nonneg_left b1.1 (sub_nonneg.2 A1),
      mul_le_mul_of_nonneg_left b1.2 (sub_nonneg.2 A1), mul_le_mul_of_nonneg_left b2.1 A0,
      mul_le_mul_of_nonneg_left b2.2 A0]
  rw [hdiff, abs_div, abs_of_pos hD, div_le_div_iff₀ hD hpos]
  have hcB : c * B ≤ SD := by linarith
  have hΔ0 : 0 ≤ Δ := by
    have := (abs_nonneg _).trans hΔ
    by_contra h
    have := mul_neg_of_pos_of_neg hc (not_le.1 h)
    linarith
  calc |(1 - A') * (SN - SN') - A' * ((SD - SN) - (SD' - SN'))| * B ≤ (2 * c * Δ) * B :=
        mul_le_mul_of_nonneg_right hΔ hpos.le
    _ = 2 * Δ * (c * B) := by ring
    _ ≤ 2 * Δ * SD := mul_le_mul_of_nonneg_left hcB (by linarith)

end

end SegEval
