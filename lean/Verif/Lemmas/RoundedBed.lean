import Verif.Lemmas.RoundedML
import Verif.Lemmas.Transpose

/-!
# The confusion matrix of boundary edit distance with rounded increments
-/

namespace SegEval

open Spec

section Increments

variable {κ : Type _} [DecidableEq κ] {ρ : Rounding} {limit : ℕ}

def incrsR (ρ : Rounding) (l : List (Incr κ)) (m : CM κ) : Py (CM κ) :=
  forLoop l m (fun m x => m.incrR ρ x.p x.a x.v)

/-- How often a cell is incremented. -/
def hits (l : List (Incr κ)) (p a : κ) : ℕ := l.countP (fun x => decide (x.p = p ∧ x.a = a))

theorem incrR_inv {m : CM κ} {p a : κ} {v : PyNum} {m' : CM κ} (h : m.incrR ρ p a v = .ok m') :
    ∃ new, PyNum.addR ρ (cell m p a) v = .ok new ∧ m' = (m.read p a).2.write p a new := by
  unfold CM.incrR at h
  simp only at h
  split at h
  · cases h
  · rename_i new hn
    cases h
    exact ⟨new, hn, rfl⟩

theorem incrsR_label {l : List (Incr κ)} {m m' : CM κ} (h : incrsR ρ l m = .ok m') (c : κ) :
    HasLabel m' c ↔ HasLabel m c ∨ ∃ x ∈ l, c = x.p ∨ c = x.a := by
  unfold incrsR at h
  induction l generalizing m with
  | nil => cases h; simp
  | cons x xs ih =>
    simp only [forLoop] at h
    cases h1 : m.incrR ρ x.p x.a x.v with
    | error e => rw [h1] at h; cases h
    | ok m1 =>
      rw [h1] at h
      obtain ⟨new, h3, h4⟩ := incrR_inv h1
      rw [ih h, h4, hasLabel_write, hasLabel_read]
      simp only [List.mem_cons, exists_eq_or_imp]
      generalize (∃ y ∈ xs, c = y.p ∨ c = y.a) = Q
      generalize HasLabel m c = L
      tauto

/-- Cells reached by increments of at most 1. -/
theorem incrsR_cells (hr : Faithful ρ.dec limit) {l : List (Incr κ)}
    (hv : ∀ x ∈ l, x.v.NoFlt ∧ 0 ≤ x.v.val ∧ x.v.val ≤ 1) {m m' : CM κ} (N : κ → κ → ℕ)
    (hN : ∀ p a, N p a + hits l p a ≤ limit)
    (hm : Rounded ρ m) (hle : ∀ p a, entry m p a ≤ N p a) (hs : Sound m)
    (h : incrsR ρ l m = .ok m') :
    Rounded ρ m' ∧ (∀ p a, entry m' p a ≤ (N p a + hits l p a : ℕ)) ∧ Sound m' := by
  unfold incrsR at h
  induction l generalizing m N with
  | nil => cases h; exact ⟨hm, by simpa [hits] using hle, hs⟩
  | cons x xs ih =>
    simp only [forLoop] at h
    cases h1 : m.incrR ρ x.p x.a x.v with
    | error e => rw [h1] at h; cases h
    | ok m1 =>
      rw [h1] at h
      obtain ⟨new, h3, h4⟩ := incrR_inv h1
      obtain ⟨v1, v2, v3⟩ := hv x (by simp)
      have hc : ∀ p a, cell m1 p a = if p = x.p ∧ a = x.a then new else cell m p a := by
        intro p a
        rw [h4, cell_write, cell_read]
      have hcount : ∀ p a, hits (x :: xs) p a = (if p = x.p ∧ a = x.a then 1 else 0) + hits xs p a := by
        intro p a
        unfold hits
        rw [List.countP_cons, add_comm]
        congr 1
        simp only [decide_eq_true_eq, eq_comm (a := x.p), eq_comm (a := x.a)]
      have hbig : N x.p x.a + 1 ≤ limit := by
        have := hN x.p x.a
        rw [hcount] at this
        simp at this
        omega
      have hup : ∀ q, q ≤ entry m x.p x.a + x.v.val → ρ.dec q ≤ ((N x.p x.a + 1 : ℕ) : ℚ) := by
        intro q hq
        have h5 : q ≤ (((N x.p x.a + 1 : ℕ) : ℤ) : ℚ) := by
          have := hle x.p x.a
          push_cast
          linarith
        have h6 := hr.mono h5
        rw [hr.int _ (by rw [Nat.abs_cast]; exact_mod_cast hbig)] at h6
        simpa using h6
      obtain ⟨z, g1, g2, g3⟩ := addR_noFlt (ρ := ρ) (hm.noFloats x.p x.a) v1
      rw [h3] at g1
      cases g1
      have hnn : 0 ≤ entry m x.p x.a + x.v.val := add_nonneg (hm.nonNeg _ _) v2
      have hnew : 0 ≤ new.val ∧ new.val ≤ ((N x.p x.a + 1 : ℕ) : ℚ) ∧ ρ.dec new.val = new.val := by
        rcases g3 with ⟨n, k, e1, e2, rfl⟩ | rfl
        · have e3 : ((n + k : ℤ) : ℚ) = entry m x.p x.a + x.v.val := by
            unfold entry; rw [e1, e2]; simp [PyNum.val]
          have e4 : ((n + k : ℤ) : ℚ) ≤ ((N x.p x.a + 1 : ℕ) : ℚ) := by
            rw [e3]
            have := hle x.p x.a
            push_cast
            linarith
          refine ⟨by show (0 : ℚ) ≤ ((n + k : ℤ) : ℚ); rw [e3]; exact hnn, e4, ?_⟩
          apply hr.int
          have e5 : (0 : ℤ) ≤ n + k := by
            have : (0 : ℚ) ≤ ((n + k : ℤ) : ℚ) := by rw [e3]; exact hnn
            exact_mod_cast this
          rw [abs_of_nonneg e5]
          have e6 : n + k ≤ ((N x.p x.a + 1 : ℕ) : ℤ) := by exact_mod_cast e4
          have e7 : ((N x.p x.a + 1 : ℕ) : ℤ) ≤ limit := by exact_mod_cast hbig
          exact e6.trans e7
        · exact ⟨hr.nonneg hnn, hup _ le_rfl, hr.idem _⟩
      have hs1 : Sound m1 := by
        rw [h4]; intro hd; cases hd
      have := ih (fun y hy => hv y (by simp [hy]))
        (fun p a => N p a + if p = x.p ∧ a = x.a then 1 else 0) (m := m1) (by
          intro p a
          have := hN p a
          rw [hcount] at this
          omega) ⟨?_, ?_, ?_⟩ ?_ hs1 h
      · refine ⟨this.1, ?_, this.2.2⟩
        intro p a
        have h7 := this.2.1 p a
        rw [hcount]
        refine le_trans h7 (le_of_eq ?_)
        push_cast
        ring
      · intro p a
        rw [hc]
        split
        · exact g2
        · exact hm.noFloats p a
      · intro p a
        rw [hc]
        split
        · exact hnew.1
        · exact hm.nonNeg p a
      · intro p a
        unfold entry
        rw [hc]
        split
        · exact hnew.2.2
        · exact hm.kept p a
      · intro p a
        unfold entry
        rw [hc]
        split
        · rename_i hpa
          rw [hpa.1, hpa.2]
          exact_mod_cast hnew.2.1
        · simpa [entry] using hle p a

theorem rounded_empty (hr : Faithful ρ.dec limit) : Rounded ρ ({} : CM κ) := by
  have h0 : ∀ p a, cell ({} : CM κ) p a = .int 0 := fun p a => by
    rw [cell_eq]; simp [CM.row, dictGet]
  refine ⟨fun p a => by rw [h0]; trivial, fun p a => by rw [h0]; simp [PyNum.val], fun p a => ?_⟩
  unfold entry
  rw [h0]
  simpa [PyNum.val] using hr.zero

theorem sum_hits_le (l : List (Incr κ)) (S : Finset κ) :
    ∑ p ∈ S, ∑ a ∈ S, hits l p a ≤ l.length := by
  induction l with
  | nil => simp [hits]
  | cons x xs ih =>
    have hcount : ∀ p a, hits (x :: xs) p a = (if p = x.p then if a = x.a then 1 else 0 else 0) +
        hits xs p a := by
      intro p a
      unfold hits
      rw [List.countP_cons, add_comm]
      congr 1
      simp only [decide_eq_true_eq, eq_comm (a := x.p), eq_comm (a := x.a)]
      split_ifs <;> simp_all
    simp only [hcount, Finset.sum_add_distrib, List.length_cons]
    have h1 : ∑ p ∈ S, ∑ a ∈ S, (if p = x.p then if a = x.a then 1 else 0 else 0) ≤ 1 := by
      have : ∀ p ∈ S, ∑ a ∈ S, (if p = x.p then if a = x.a then 1 else 0 else 0) ≤
          if p = x.p then 1 else 0 := by
        intro p _
        by_cases hp : p = x.p
        · simp only [hp, if_true, Finset.sum_ite_eq']
          split <;> omega
        · simp [hp]
      refine (Finset.sum_le_sum this).trans ?_
      rw [Finset.sum_ite_eq']
      split <;> omega
    omega

theorem incrsR_bounds (hr : Faithful ρ.dec limit) {l : List (Incr κ)}
    (hv : ∀ x ∈ l, x.v.NoFlt ∧ 0 ≤ x.v.val ∧ x.v.val ≤ 1) (hl : 2 * l.length ≤ limit) {m : CM κ}
    (h : incrsR ρ l {} = .ok m) :
    Rounded ρ m ∧ Sound m ∧ grandTotal m ≤ limit ∧ m.classes.1.card ≤ limit := by
  have hhits : ∀ p a, hits l p a ≤ l.length := fun p a => List.countP_le_length
  obtain ⟨h1, h2, h3⟩ := incrsR_cells hr hv (fun _ _ => 0)
    (fun p a => by have := hhits p a; omega) (rounded_empty hr)
    (fun p a => by rw [entry_empty]; simp) sound_empty h
  refine ⟨h1, h3, ?_, ?_⟩
  · rw [grandTotal_eq]
    have h4 : ∑ p ∈ m.labels, ∑ a ∈ m.labels, entry m p a ≤
        ((∑ p ∈ m.labels, ∑ a ∈ m.labels, hits l p a : ℕ) : ℚ) := by
      push_cast
      refine Finset.sum_le_sum (fun p _ => Finset.sum_le_sum (fun a _ => ?_))
      have := h2 p a
      simpa using this
    have h5 : ((∑ p ∈ m.labels, ∑ a ∈ m.labels, hits l p a : ℕ) : ℚ) ≤ (limit : ℚ) := by
      have := sum_hits_le l m.labels
      exact_mod_cast (by omega : ∑ p ∈ m.labels, ∑ a ∈ m.labels, hits l p a ≤ limit)
    exact h4.trans h5
  · have hsub : m.classes.1 ⊆ (l.map Incr.p ++ l.map Incr.a).toFinset := by
      intro c hc
      have h4 := (classes_mem_of_sound h3).2 c hc
      rcases (incrsR_label h c).1 h4 with h5 | ⟨x, hx, h5⟩
      · obtain ⟨r, hr', -⟩ := h5
        simp at hr'
      · rw [List.mem_toFinset, List.mem_append, List.mem_map, List.mem_map]
        rcases h5 with rfl | rfl
        · exact .inl ⟨x, hx, rfl⟩
        · exact .inr ⟨x, hx, rfl⟩
    have h4 := Finset.card_le_card hsub
    have h5 := List.toFinset_card_le (l.map Incr.p ++ l.map Incr.a)
    rw [List.length_append, List.length_map, List.length_map] at h5
    omega

end Increments

section Bed

variable {ρ : Rounding} {limit : ℕ}

theorem addTranspositionsR_incrs {w : Weights} {nT : ℤ} {l : List Transposition}
    {m m' : CM BLabel} (h : forLoop l m (addTranspositionR ρ w nT) = .ok m') :
    forLoop l m (fun m t => m.incrR ρ (some t.type) (some t.type) (creditNum w nT t)) = .ok m' ∧
      ∀ t ∈ l, ∃ v, w.t [t] nT = .ok v := by
  induction l generalizing m with
  | nil => exact ⟨h, by simp⟩
  | cons t ts ih =>
    simp only [forLoop] at h ⊢
    cases h1 : addTranspositionR ρ w nT m t with
    | error e => rw [h1] at h; cases h
    | ok m1 =>
      rw [h1] at h
      obtain ⟨i1, i2⟩ := ih h
      unfold addTranspositionR at h1
      cases hw : w.t [t] nT with
      | error e => rw [hw] at h1; cases h1
      | ok v =>
        rw [hw] at h1
        simp only at h1
        have : creditNum w nT t = v := by unfold creditNum; rw [hw]
        rw [this, h1]
        refine ⟨i1, ?_⟩
        intro u hu
        rcases List.mem_cons.1 hu with rfl | hu
        · exact ⟨v, hw⟩
        · exact i2 u hu

theorem addAdditionR_eq (m : CM BLabel) (d : Addition) :
    addAdditionR ρ m d = m.incrR ρ (additionCell d).1 (additionCell d).2 (.int 1) := by
  unfold addAdditionR additionCell
  cases d.side <;> rfl

theorem matrixR_incrs {w : Weights} {nT : ℤ} {st : Statistics} {m : CM BLabel}
    (h : matrixOfStatisticsR ρ w nT st = .ok m) : incrsR ρ (incrsOf w nT st) {} = .ok m ∧
      ∀ t ∈ st.edits.transpositions, ∃ v, w.t [t] nT = .ok v := by
  unfold matrixOfStatisticsR at h
  cases h1 : addMatchesR ρ {} st.matches' with
  | error e => rw [h1] at h; cases h
  | ok m1 =>
    rw [h1] at h
    simp only at h
    cases h2 : forLoop st.edits.transpositions m1 (addTranspositionR ρ w nT) with
    | error e => rw [h2] at h; cases h
    | ok m2 =>
      rw [h2] at h
      simp only at h
      cases h3 : addSubstitutionsR ρ m2 st.edits.substitutions with
      | error e => rw [h3] at h; cases h
      | ok m3 =>
        rw [h3] at h
        simp only at h
        rw [show addAdditionR ρ = fun m d => m.incrR ρ (additionCell d).1 (additionCell d).2 (.int 1)
          from funext fun m => funext fun d => addAdditionR_eq m d] at h
        unfold addMatchesR at h1
        unfold addSubstitutionsR at h3
        obtain ⟨h2', h2''⟩ := addTranspositionsR_incrs h2
        refine ⟨?_, h2''⟩
        unfold incrsR incrsOf
        simp only [forLoop_append, forLoop_map]
        rw [h1]; simp only
        rw [h2']; simp only
        rw [h3]; simp only
        exact h

/-- The credit of a near miss is between 0 and 1. -/
theorem creditR_unit (hr : Faithful ρ.dec limit) (h1 : 1 ≤ limit) {w : Weights} (hw : SuppliedR ρ w)
    {nT : ℤ} {t : Transposition} (ho : t.start < t.stop) (hs : ((t.stop : ℤ) - t.start) < nT) :
    (creditNum w nT t).NoFlt ∧ 0 ≤ (creditNum w nT t).val ∧ (creditNum w nT t).val ≤ 1 := by
  unfold creditNum
  rcases hw.2.2 with h | h
  · rw [h]
    exact ⟨trivial, by simp [PyNum.val, weightT], by simp [PyNum.val, weightT]⟩
  · have hn : (0 : ℤ) < nT := by omega
    have hnq : (0 : ℚ) < nT := by exact_mod_cast hn
    have habs : |(t.start : ℤ) - (t.stop : ℤ)| = t.stop - t.start := by
      rw [abs_sub_comm]; exact abs_of_nonneg (by omega)
    rw [h]
    simp only [Weights.defaultR, scalePairsR_ok ρ _ hn.ne', List.map_cons, List.map_nil, spanSum,
      add_zero, habs, PyNum.val]
    have h2 : (0 : ℚ) ≤ ((t.stop - t.start : ℤ) : ℚ) := by
      have : (0 : ℤ) ≤ (t.stop : ℤ) - t.start := by omega
      exact_mod_cast this
    have h3 : ((t.stop - t.start : ℤ) : ℚ) ≤ nT := by exact_mod_cast hs.le
    refine ⟨trivial, hr.nonneg (div_nonneg h2 hnq.le), ?_⟩
    have := hr.mono (show ((t.stop - t.start : ℤ) : ℚ) / nT ≤ 1 from div_le_one_of_le₀ h3 hnq.le)
    rwa [hr.one h1] at this

/-- The matrix of two segmentations, filled with rounded arithmetic. -/
theorem bcmR_bounds (hr : Faithful ρ.dec limit) (h1 : 1 ≤ limit) {rt : Runtime} {kw : SimKw}
    (hw : SuppliedR ρ kw.weight) {a b : Seg} {m : CM BLabel}
    (h : boundaryConfusionMatrixR ρ rt kw a b = .ok m)
    (hl : ∀ st, boundaryStatisticsR ρ rt kw.boundaryFormat kw.nT kw.weight a b = .ok st →
      2 * (st.matches'.length + st.edits.transpositions.length + st.edits.substitutions.length +
        st.edits.additions.length) ≤ limit) :
    Rounded ρ m ∧ Sound m ∧ grandTotal m ≤ limit ∧ m.classes.1.card ≤ limit := by
  unfold boundaryConfusionMatrixR at h
  cases h2 : boundaryStatisticsR ρ rt kw.boundaryFormat kw.nT kw.weight a b with
  | error e => rw [h2] at h; cases h
  | ok st =>
    rw [h2] at h
    simp only at h
    have hlen := hl st h2
    obtain ⟨h3, -⟩ := matrixR_incrs h
    refine incrsR_bounds hr ?_ (by simpa [incrsOf, add_assoc] using hlen) h3
    have hgen : ∀ t ∈ st.edits.transpositions, t.start < t.stop ∧
        ((t.stop : ℤ) - t.start) < kw.nT := by
      unfold boundaryStatisticsR at h2
      split at h2
      · cases h2
      · rename_i sa sb hsab
        unfold statisticsOfStringsR at h2
        split at h2
        · cases h2
        · rename_i hlenq
          simp only at h2
          split at h2
          · cases h2
          · rename_i edits hed
            split at h2
            · cases h2
            · cases h2
              intro t ht
              rw [bed_edits (not_not.1 hlenq).le hed] at ht
              have hg := allT_genuine rt sa sb kw.nT t ht
              exact ⟨hg.ordered, hg.span⟩
    intro x hx
    simp only [incrsOf, List.mem_append, List.mem_map] at hx
    rcases hx with ((⟨t, _, rfl⟩ | ⟨t, ht, rfl⟩) | ⟨t, _, rfl⟩) | ⟨t, _, rfl⟩
    · exact ⟨trivial, by simp [PyNum.val], by simp [PyNum.val]⟩
    · exact creditR_unit hr h1 hw (hgen t ht).1 (hgen t ht).2
    · exact ⟨trivial, by simp [PyNum.val], by simp [PyNum.val]⟩
    · exact ⟨trivial, by simp [PyNum.val], by simp [PyNum.val]⟩

end Bed

end SegEval
