import Verif.Lemmas.MLBed
import Verif.Lemmas.Agreement
import Verif.Spec.Preferred
import Verif.Spec.Transpose
import Mathlib.Algebra.BigOperators.Finprod

namespace SegEval

open Spec

section Loops

/-- A loop whose steps can be exchanged does not depend on the order. -/
theorem forLoop_perm {α S : Type _} (f : S → α → Py S)
    (hc : ∀ s x y, forLoop [x, y] s f = forLoop [y, x] s f) {l l' : List α} (h : l.Perm l') (s : S) :
    forLoop l s f = forLoop l' s f := by
  induction h generalizing s with
  | nil => rfl
  | cons x _ ih =>
    simp only [forLoop]
    cases f s x with
    | error e => rfl
    | ok s' => exact ih s'
  | swap x y l =>
    have e1 : forLoop (y :: x :: l) s f = forLoop ([y, x] ++ l) s f := rfl
    have e2 : forLoop (x :: y :: l) s f = forLoop ([x, y] ++ l) s f := rfl
    rw [e1, e2, forLoop_append, forLoop_append, hc]
  | trans _ _ ih1 ih2 => rw [ih1, ih2]

theorem forLoop_add_perm {l l' : List PyNum} (h : l.Perm l') (s : PyNum) :
    forLoop l s PyNum.add = forLoop l' s PyNum.add := by
  refine forLoop_perm _ (fun s x y => ?_) h s
  cases s <;> cases x <;> cases y <;> simp [forLoop, PyNum.add, add_right_comm]

end Loops

section Increments

variable {κ : Type _} [DecidableEq κ]

/-- One increment of a matrix. -/
structure Incr (κ : Type _) where
  p : κ
  a : κ
  v : PyNum

/-- The same increment of the transposed cell. -/
def Incr.flip (x : Incr κ) : Incr κ := ⟨x.a, x.p, x.v⟩

def incrs (l : List (Incr κ)) (m : CM κ) : Py (CM κ) := forLoop l m (fun m x => m.incr x.p x.a x.v)

theorem incrs_cell {l : List (Incr κ)} {m m' : CM κ} (h : incrs l m = .ok m') (p a : κ) :
    forLoop ((l.filter (fun x => decide (x.p = p ∧ x.a = a))).map Incr.v) (cell m p a) PyNum.add =
      .ok (cell m' p a) := by
  unfold incrs at h
  induction l generalizing m with
  | nil => cases h; rfl
  | cons x xs ih =>
    simp only [forLoop] at h
    cases h1 : m.incr x.p x.a x.v with
    | error e => rw [h1] at h; cases h
    | ok m1 =>
      rw [h1] at h
      have h2 := ih h
      obtain ⟨new, h3, h4⟩ := incr_inv h1
      have h5 : cell m1 p a = if p = x.p ∧ a = x.a then new else cell m p a := by
        rw [h4, cell_write, cell_read]
      by_cases hc : x.p = p ∧ x.a = a
      · rw [if_pos ⟨hc.1.symm, hc.2.symm⟩] at h5
        rw [List.filter_cons_of_pos (by simpa using hc), List.map_cons, forLoop, ← hc.1, ← hc.2, h3]
        simp only
        rw [← h5, hc.1, hc.2]
        exact h2
      · rw [if_neg (fun h => hc ⟨h.1.symm, h.2.symm⟩)] at h5
        rw [List.filter_cons_of_neg (by simpa using hc), ← h5]
        exact h2

theorem incrs_label {l : List (Incr κ)} {m m' : CM κ} (h : incrs l m = .ok m') (c : κ) :
    HasLabel m' c ↔ HasLabel m c ∨ ∃ x ∈ l, c = x.p ∨ c = x.a := by
  unfold incrs at h
  induction l generalizing m with
  | nil => cases h; simp
  | cons x xs ih =>
    simp only [forLoop] at h
    cases h1 : m.incr x.p x.a x.v with
    | error e => rw [h1] at h; cases h
    | ok m1 =>
      rw [h1] at h
      obtain ⟨new, h3, h4⟩ := incr_inv h1
      rw [ih h, h4, hasLabel_write, hasLabel_read]
      simp only [List.mem_cons, exists_eq_or_imp]
      generalize (∃ y ∈ xs, c = y.p ∨ c = y.a) = Q
      generalize HasLabel m c = L
      tauto

theorem incrs_reachable {l : List (Incr κ)} {m m' : CM κ} (hr : Reachable m)
    (h : incrs l m = .ok m') : Reachable m' :=
  reachable_loop _ (fun _ _ _ h => ⟨_, _, _, h⟩) _ hr h

theorem incrs_fresh {l : List (Incr κ)} {m m' : CM κ} (hf : Fresh m)
    (h : incrs l m = .ok m') : Fresh m' := by
  unfold incrs at h
  induction l generalizing m with
  | nil => cases h; exact hf
  | cons x xs ih =>
    simp only [forLoop] at h
    cases h1 : m.incr x.p x.a x.v with
    | error e => rw [h1] at h; cases h
    | ok m1 =>
      rw [h1] at h
      obtain ⟨new, h3, h4⟩ := incr_inv h1
      refine ih (fun hd => ?_) h
      rw [h4] at hd
      exact absurd hd (by simp [write_dirty])

theorem empty_reachable : Reachable ({} : CM κ) :=
  ⟨⟨fun _ S => S.toList, fun _ S => S.nodup_toList, fun _ _ _ => Finset.mem_toList⟩, 0, [], rfl⟩

/-- Increments that are the transposed ones, in any order, make the transposed matrix. -/
theorem incrs_transposed {l l' : List (Incr κ)} (hp : l'.Perm (l.map Incr.flip)) {m m' : CM κ}
    (h : incrs l {} = .ok m) (h' : incrs l' {} = .ok m') : Transposed m m' := by
  refine ⟨fun p a => ?_, ?_⟩
  · have e1 := incrs_cell h p a
    have e2 := incrs_cell h' a p
    have hl : ((l'.filter (fun x => decide (x.p = a ∧ x.a = p))).map Incr.v).Perm
        ((l.filter (fun x => decide (x.p = p ∧ x.a = a))).map Incr.v) := by
      refine ((hp.filter _).map _).trans (List.Perm.of_eq ?_)
      rw [List.filter_map, List.map_map]
      have : ((fun x : Incr κ => decide (x.p = a ∧ x.a = p)) ∘ Incr.flip) =
          fun x => decide (x.p = p ∧ x.a = a) := by
        funext x
        exact decide_eq_decide.2 and_comm
      rw [this]
      rfl
    rw [forLoop_add_perm hl] at e2
    have hz : cell ({} : CM κ) a p = cell ({} : CM κ) p a := by
      rw [cell_eq, cell_eq]; simp [CM.row, dictGet]
    rw [hz] at e2
    exact Except.ok.inj (e2.symm.trans e1)
  · ext c
    rw [classes_mem_of_fresh (incrs_fresh fresh_empty h) c,
      classes_mem_of_fresh (incrs_fresh fresh_empty h') c, incrs_label h, incrs_label h']
    refine or_congr Iff.rfl ⟨?_, ?_⟩
    · rintro ⟨x, hx, hc⟩
      obtain ⟨y, hy, rfl⟩ := List.mem_map.1 (hp.mem_iff.1 hx)
      exact ⟨y, hy, hc.symm⟩
    · rintro ⟨x, hx, hc⟩
      exact ⟨x.flip, hp.mem_iff.2 (List.mem_map_of_mem hx), hc.symm⟩

end Increments

section Queries

variable {κ : Type _} [DecidableEq κ]

theorem transposed_symm {m m' : CM κ} (h : Transposed m m') : Transposed m' m :=
  ⟨fun p a => (h.cells a p).symm, h.classes.symm⟩

theorem transposed_rowTotal {m m' : CM κ} (h : Transposed m m') (c : κ) :
    rowTotal m' c = colTotal m c :=
  finsum_congr (fun a => by rw [entry, entry, h.cells])

theorem transposed_colTotal {m m' : CM κ} (h : Transposed m m') (c : κ) :
    colTotal m' c = rowTotal m c :=
  (transposed_rowTotal (transposed_symm h) c).symm

theorem transposed_precisionOf {m m' : CM κ} (h : Transposed m m') (c : κ) :
    precisionOf m' c = recallOf m c := by
  rw [precisionOf, recallOf, h.cells, transposed_rowTotal h]

theorem transposed_recallOf {m m' : CM κ} (h : Transposed m m') (c : κ) :
    recallOf m' c = precisionOf m c := (transposed_precisionOf (transposed_symm h) c).symm

theorem fOfRatios_exchange {beta : ℚ} (hb : beta ≠ 0) (p r : ℚ) :
    fOfRatios beta p r = fOfRatios beta⁻¹ r p := by
  have hb2 : beta ^ 2 ≠ 0 := pow_ne_zero 2 hb
  have hd : beta ^ 2 * p + r = beta ^ 2 * (beta⁻¹ ^ 2 * r + p) := by
    rw [inv_pow]; field_simp; ring
  unfold fOfRatios
  by_cases h0 : p = 0 ∨ r = 0
  · rw [if_pos h0, if_pos h0.symm]
  · rw [if_neg h0, if_neg (fun h => h0 (Or.symm h))]
    by_cases h1 : beta⁻¹ ^ 2 * r + p = 0
    · rw [if_pos h1, if_pos (by rw [hd, h1, mul_zero])]
    · rw [if_neg h1, if_neg (by rw [hd]; exact mul_ne_zero hb2 h1)]
      rw [hd]
      congr 1
      rw [div_eq_div_iff (mul_ne_zero hb2 h1) h1, inv_pow]
      field_simp
      ring

theorem transposed_fOf {m m' : CM κ} (h : Transposed m m') {beta : ℚ} (hb : beta ≠ 0) (c : κ) :
    fOf beta⁻¹ m' c = fOf beta m c := by
  rw [fOf, fOf, transposed_precisionOf h, transposed_recallOf h]
  cases h1 : precisionOf m c <;> cases h2 : recallOf m c <;> try rfl
  exact (fOfRatios_exchange hb _ _).symm

theorem transposed_fParts {m m' : CM κ} (h : Transposed m m') {beta : ℚ} (hb : beta ≠ 0) (c : κ) :
    fParts beta⁻¹ m' c = (fParts beta m c).map (fun x => (beta⁻¹ ^ 2 * x.1, beta⁻¹ ^ 2 * x.2)) := by
  rw [fParts, fParts, transposed_precisionOf h, transposed_recallOf h]
  cases h1 : precisionOf m c <;> cases h2 : recallOf m c <;> try rfl
  simp only [Option.map_some, Option.some.injEq, Prod.mk.injEq, inv_pow]
  constructor
  · field_simp; ring
  · field_simp; ring

omit [DecidableEq κ] in
theorem microOf_scale {parts parts' : κ → Option (ℚ × ℚ)} {k : ℚ} (hk : k ≠ 0)
    (h : ∀ c, parts' c = (parts c).map (fun x => (k * x.1, k * x.2))) :
    microOf parts' = microOf parts := by
  have hn : (∃ c, parts' c = none) ↔ ∃ c, parts c = none := by
    refine exists_congr (fun c => ?_)
    rw [h]; simp
  have h1 : ∑ᶠ c, ((parts' c).getD (0, 0)).1 = k * ∑ᶠ c, ((parts c).getD (0, 0)).1 := by
    rw [← smul_eq_mul, smul_finsum]
    refine finsum_congr (fun c => ?_)
    rw [h]; cases parts c <;> simp
  have h2 : ∑ᶠ c, ((parts' c).getD (0, 0)).2 = k * ∑ᶠ c, ((parts c).getD (0, 0)).2 := by
    rw [← smul_eq_mul, smul_finsum]
    refine finsum_congr (fun c => ?_)
    rw [h]; cases parts c <;> simp
  unfold microOf
  by_cases hx : ∃ c, parts c = none
  · rw [if_pos hx, if_pos (hn.2 hx)]
  · rw [if_neg hx, if_neg (fun h => hx (hn.1 h))]
    simp only
    rw [h1, h2]
    simp only [mul_eq_zero, hk, false_or]
    rw [mul_div_mul_left _ _ hk]

theorem transposed_answer (o o' : ClassOrder κ) (site site' : List ℕ) (q : Query κ) {m m' : CM κ}
    (hs : Sound m) (hs' : Sound m') (hn : NoFloats m) (ht : Transposed m m')
    (hq : ∀ c beta v, q = .fmeasure c beta v → beta ≠ 0) :
    answer (q.exchanged.run o' site' m') = answer (q.run o site m) := by
  have hn' : NoFloats m' := fun p a => by rw [ht.cells]; exact hn a p
  have key : ∀ {fnc fnc' : ClassFn κ} {val val' parts parts'}, ClassSpec fnc val parts →
      ClassSpec fnc' val' parts' → (∀ c, val' m' c = val m c) →
      microOf (parts' m') = microOf (parts m) → ∀ (c : Option κ) v,
      answer (valueMicroMacro o' fnc' site' c v m') = answer (valueMicroMacro o fnc site c v m) := by
    intro fnc fnc' val val' parts parts' hf hf' hv hm c v
    cases c with
    | some c => rw [(value_class hf site c v m hs hn).1, (value_class hf' site' c v m' hs' hn').1, hv]
    | none =>
      match v with
      | .micro => rw [(value_micro hf site m hs hn).1, (value_micro hf' site' m' hs' hn').1, hm]
      | .macro =>
        rw [(value_macro hf site m hs hn).1, (value_macro hf' site' m' hs' hn').1, ht.classes]
        congr 1; funext c; exact hv c
      | .other => rfl
  have hdiag : ∀ c, entry m' c c = entry m c c := fun c => by rw [entry, entry, ht.cells]
  cases q with
  | precision c v =>
    refine key (precision_spec o) (recall_spec o') (fun c => transposed_recallOf ht c) ?_ c v
    congr 1; funext c; rw [hdiag, transposed_colTotal ht]
  | recall c v =>
    refine key (recall_spec o) (precision_spec o') (fun c => transposed_precisionOf ht c) ?_ c v
    congr 1; funext c; rw [hdiag, transposed_rowTotal ht]
  | fmeasure c b v =>
    have hb := hq c b v rfl
    refine key (fmeasure_spec o b) (fmeasure_spec o' b⁻¹) (fun c => transposed_fOf ht hb c) ?_ c v
    exact microOf_scale (pow_ne_zero 2 (inv_ne_zero hb)) (fun c => transposed_fParts ht hb c)

end Queries

section Bed

/-- The credit of a transposition as the program's number. -/
def creditNum (w : Weights) (nT : ℤ) (t : Transposition) : PyNum :=
  match w.t [t] nT with
  | .ok v => v
  | .error _ => .int 0

/-- The increments `__boundary_confusion_matrix__` makes. -/
def incrsOf (w : Weights) (nT : ℤ) (st : Statistics) : List (Incr BLabel) :=
  st.matches'.map (fun t => ⟨some t, some t, .int 1⟩) ++
  st.edits.transpositions.map (fun t => ⟨some t.type, some t.type, creditNum w nT t⟩) ++
  st.edits.substitutions.map (fun s => ⟨some s.typeA, some s.typeB, .int 1⟩) ++
  st.edits.additions.map (fun d => ⟨(additionCell d).1, (additionCell d).2, .int 1⟩)

theorem addTranspositions_incrs {w : Weights} {nT : ℤ} {l : List Transposition} {m m' : CM BLabel}
    (h : addTranspositions w nT m l = .ok m') :
    forLoop l m (fun m t => m.incr (some t.type) (some t.type) (creditNum w nT t)) = .ok m' := by
  unfold addTranspositions at h
  induction l generalizing m with
  | nil => exact h
  | cons t ts ih =>
    simp only [forLoop] at h ⊢
    have hstep : ∀ m1, addTransposition w nT m t = .ok m1 →
        m.incr (some t.type) (some t.type) (creditNum w nT t) = .ok m1 := by
      intro m1 h1
      unfold addTransposition at h1
      unfold creditNum
      cases hw : w.t [t] nT with
      | error e => rw [hw] at h1; cases h1
      | ok v => rw [hw] at h1; exact h1
    cases h1 : addTransposition w nT m t with
    | error e => rw [h1] at h; cases h
    | ok m1 =>
      rw [h1] at h
      rw [hstep m1 h1]
      exact ih h

theorem matrix_incrs {w : Weights} {nT : ℤ} {st : Statistics} {m : CM BLabel}
    (h : matrixOfStatistics w nT st = .ok m) : incrs (incrsOf w nT st) {} = .ok m := by
  unfold matrixOfStatistics at h
  cases h1 : addMatches {} st.matches' with
  | error e => rw [h1] at h; cases h
  | ok m1 =>
    rw [h1] at h
    simp only at h
    cases h2 : addTranspositions w nT m1 st.edits.transpositions with
    | error e => rw [h2] at h; cases h
    | ok m2 =>
      rw [h2] at h
      simp only at h
      cases h3 : addSubstitutions m2 st.edits.substitutions with
      | error e => rw [h3] at h; cases h
      | ok m3 =>
        rw [h3] at h
        simp only at h
        rw [addAdditions_eq] at h
        unfold addMatches at h1
        unfold addSubstitutions at h3
        have h2' := addTranspositions_incrs h2
        unfold incrs incrsOf
        simp only [forLoop_append, forLoop_map]
        rw [h1]; simp only
        rw [h2']; simp only
        rw [h3]; simp only
        exact h

theorem matches_perm_swap (rt rt' : Runtime) (i : ℕ) (a b : BString) :
    (matchesFrom rt' i (b.zip a)).Perm (matchesFrom rt i (a.zip b)) := by
  induction a generalizing i b with
  | nil => cases b <;> exact List.Perm.nil
  | cons x xs ih =>
    cases b with
    | nil => exact List.Perm.nil
    | cons y ys =>
      simp only [List.zip_cons_cons, matchesFrom]
      refine List.Perm.append ?_ (ih (i + 1) ys)
      rw [Finset.inter_comm]
      exact (rt'.order_perm _ _).trans (rt.order_perm _ _).symm

theorem incr_total {κ : Type _} [DecidableEq κ] {m : CM κ} (hm : NoFloats m) (p a : κ) {v : PyNum}
    (hv : v.NoFlt) : ∃ m', m.incr p a v = .ok m' ∧ NoFloats m' := by
  obtain ⟨x, hx, hxn⟩ : ∃ x, (cell m p a).add v = .ok x ∧ x.NoFlt := by
    have := hm p a
    generalize cell m p a = c at this
    cases c <;> cases v <;>
      first | exact absurd hv id | exact absurd this id | exact ⟨_, rfl, trivial⟩
  refine ⟨(m.read p a).2.write p a x, ?_, fun p' a' => ?_⟩
  · unfold CM.incr
    simp only
    have : (m.read p a).1 = cell m p a := rfl
    rw [this, hx]
  · rw [cell_write, cell_read]
    split_ifs
    · exact hxn
    · exact hm p' a'

theorem loop_total {κ α : Type _} [DecidableEq κ] (f : CM κ → α → Py (CM κ)) (l : List α)
    (hf : ∀ m, NoFloats m → ∀ x ∈ l, ∃ p a v, v.NoFlt ∧ f m x = m.incr p a v) {m : CM κ}
    (hm : NoFloats m) : ∃ m', forLoop l m f = .ok m' ∧ NoFloats m' := by
  induction l generalizing m with
  | nil => exact ⟨m, rfl, hm⟩
  | cons x xs ih =>
    obtain ⟨p, a, v, hv, e⟩ := hf m hm x (by simp)
    obtain ⟨m1, h1, h2⟩ := incr_total hm p a hv
    simp only [forLoop]
    rw [e, h1]
    exact ih (fun m hm x hx => hf m hm x (by simp [hx])) h2

theorem supplied_credit {w : Weights} (hw : Supplied w) {nT : ℤ} {l : List Transposition}
    {x : PyNum} (h : w.t l nT = .ok x) (t : Transposition) : ∃ v, w.t [t] nT = .ok v ∧ v.NoFlt := by
  rcases hw.2.2 with h1 | h1
  · rw [h1]; exact ⟨_, rfl, trivial⟩
  · rw [h1] at h ⊢
    unfold weightTScale scalePairs PyNum.truediv at h ⊢
    simp only [PyNum.decDiv] at h ⊢
    by_cases h0 : (nT : ℚ) = 0
    · simp only [h0, if_true] at h
      split_ifs at h
    · simp only [h0, if_false]
      exact ⟨_, rfl, trivial⟩

theorem matrix_total {w : Weights} (hw : Supplied w) {nT : ℤ} {st : Statistics} {l x}
    (ht : w.t l nT = .ok x) : ∃ m, matrixOfStatistics w nT st = .ok m ∧ NoFloats m := by
  have h0 : NoFloats ({} : CM BLabel) := fun p a => by
    rw [cell_eq]; simp [CM.row, dictGet, PyNum.NoFlt]
  obtain ⟨m1, h1, n1⟩ := loop_total (fun m t => m.incr (some t) (some t) (.int 1)) st.matches'
    (fun m _ t _ => ⟨_, _, .int 1, trivial, rfl⟩) h0
  obtain ⟨m2, h2, n2⟩ := loop_total (addTransposition w nT) st.edits.transpositions
    (fun m _ t _ => by
      obtain ⟨v, hv, hn⟩ := supplied_credit hw ht t
      refine ⟨some t.type, some t.type, v, hn, ?_⟩
      unfold addTransposition
      rw [hv]) n1
  obtain ⟨m3, h3, n3⟩ := loop_total
    (fun (m : CM BLabel) (s : Substitution) => m.incr (some s.typeA) (some s.typeB) (.int 1))
    st.edits.substitutions (fun m _ t _ => ⟨_, _, .int 1, trivial, rfl⟩) n2
  obtain ⟨m4, h4, n4⟩ := loop_total (fun (m : CM BLabel) (d : Addition) =>
    m.incr (additionCell d).1 (additionCell d).2 (.int 1))
    st.edits.additions (fun m _ t _ => ⟨_, _, .int 1, trivial, rfl⟩) n3
  refine ⟨m4, ?_, n4⟩
  unfold matrixOfStatistics
  have e1 : addMatches {} st.matches' = .ok m1 := h1
  have e2 : addTranspositions w nT m1 st.edits.transpositions = .ok m2 := h2
  have e3 : addSubstitutions m2 st.edits.substitutions = .ok m3 := h3
  rw [e1]; simp only
  rw [e2]; simp only
  rw [e3]; simp only
  rw [addAdditions_eq]; exact h4

end Bed

end SegEval
