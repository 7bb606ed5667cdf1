import Verif.Spec.RoundedML
import Verif.Lemmas.MLRange
import Verif.Lemmas.RoundedMean

/-!
# Queries of a confusion matrix with rounded arithmetic
-/

namespace SegEval

open Spec

variable {κ : Type _} [DecidableEq κ] {ρ : Rounding} {limit : ℕ}

/-! ## Without rounding -/

theorem sumCellsR_exact (f : κ → κ × κ) (cs : List κ) (acc : PyNum × CM κ) :
    sumCellsR .exact f cs acc = sumCells f cs acc := by
  induction cs generalizing acc with
  | nil => rfl
  | cons c cs ih =>
    obtain ⟨t, m⟩ := acc
    rw [sumCellsR, sumCells]
    simp only [addR_exact, ih]
    rfl

theorem finishClassR_exact : finishClassR .exact = finishClass := by
  funext rp n d
  unfold finishClassR finishClass
  simp only [truedivR_exact]
  rfl

theorem classRatioR_exact (o : ClassOrder κ) : classRatioR .exact o = classRatio o := by
  funext site f m c rp
  unfold classRatioR classRatio
  simp only [sumCellsR_exact, finishClassR_exact]
  rfl

theorem precisionClassR_exact (o : ClassOrder κ) : precisionClassR .exact o = precisionClass o := by
  funext site m c rp
  rw [precisionClassR, classRatioR_exact]; rfl

theorem recallClassR_exact (o : ClassOrder κ) : recallClassR .exact o = recallClass o := by
  funext site m c rp
  rw [recallClassR, classRatioR_exact]; rfl

theorem fFromRatiosR_exact : fFromRatiosR .exact = fFromRatios := by
  funext beta rp p r
  unfold fFromRatiosR fFromRatios
  simp only [truedivR_exact]
  simp only [Rounding.exact, id, sq]
  rfl

theorem fmeasureClassR_exact (o : ClassOrder κ) (beta : ℚ) :
    fmeasureClassR .exact o beta = fmeasureClass o beta := by
  funext site m c rp
  unfold fmeasureClassR fmeasureClass
  simp only [precisionClassR_exact, recallClassR_exact, fFromRatiosR_exact]
  rfl

omit [DecidableEq κ] in
theorem microLoopR_exact (fnc : ClassFn κ) (site : List ℕ) (k : ℕ) (cs : List κ)
    (acc : PyNum × PyNum) (m : CM κ) :
    microLoopR .exact fnc site k cs acc m = microLoop fnc site k cs acc m := by
  induction cs generalizing k acc m with
  | nil => rfl
  | cons c cs ih =>
    obtain ⟨n, d⟩ := acc
    rw [microLoopR, microLoop]
    simp only [addR_exact, ih]
    rfl

theorem valueMicroMacroR_exact (o : ClassOrder κ) : valueMicroMacroR .exact o = valueMicroMacro o := by
  funext fnc site c v m
  unfold valueMicroMacroR valueMicroMacro
  simp only [microLoopR_exact, truedivR_exact, pyMeanR_exact]
  rfl

theorem runR_exact (o : ClassOrder κ) (site : List ℕ) (m : CM κ) (q : Query κ) :
    q.runR .exact o site m = q.run o site m := by
  cases q <;>
    simp only [Query.runR, Query.run, precisionR, precision, recallR, recall, fmeasureR, fmeasure,
      valueMicroMacroR_exact, precisionClassR_exact, recallClassR_exact, fmeasureClassR_exact]

/-! ## Ranges -/

/-- Ints are at most `e`. -/
def IntLe (x : PyNum) (e : ℚ) : Prop := ∀ n : ℤ, x = .int n → (n : ℚ) ≤ e

theorem addR_noFlt {x y : PyNum} (hx : x.NoFlt) (hy : y.NoFlt) :
    ∃ z, PyNum.addR ρ x y = .ok z ∧ z.NoFlt ∧
      ((∃ n k : ℤ, x = .int n ∧ y = .int k ∧ z = .int (n + k)) ∨
        z = .dec (ρ.dec (x.val + y.val))) := by
  cases x with
  | flt q => exact absurd hx id
  | int n =>
    cases y with
    | flt q => exact absurd hy id
    | int k => exact ⟨_, rfl, trivial, .inl ⟨n, k, rfl, rfl, rfl⟩⟩
    | dec q => exact ⟨_, rfl, trivial, .inr rfl⟩
  | dec p =>
    cases y with
    | flt q => exact absurd hy id
    | int k => exact ⟨_, rfl, trivial, .inr rfl⟩
    | dec q => exact ⟨_, rfl, trivial, .inr rfl⟩

/-- Adding keeps what rounding keeps below. -/
theorem addR_lower (hr : Faithful ρ.dec limit) {x y z : PyNum} (hx : x.NoFlt) (hy : y.NoFlt)
    (h : PyNum.addR ρ x y = .ok z) {L : ℚ} (hL : ρ.dec L = L) (hle : L ≤ x.val + y.val) :
    L ≤ z.val := by
  obtain ⟨z', h1, -, h2⟩ := addR_noFlt (ρ := ρ) hx hy
  rw [h] at h1
  cases h1
  rcases h2 with ⟨n, k, rfl, rfl, rfl⟩ | rfl
  · simpa [PyNum.val] using hle
  · have := hr.mono hle
    rw [hL] at this
    exact this

/-- Adding rounds, also where both are ints. -/
theorem addR_round (hr : Faithful ρ.dec limit) {x y z : PyNum} (hx : x.NoFlt) (hy : y.NoFlt)
    (hx0 : 0 ≤ x.val) (hy0 : 0 ≤ y.val)
    (h : PyNum.addR ρ x y = .ok z) {e e' : ℚ} (he : IntLe x e) (he' : IntLe y e')
    (hl : e + e' ≤ limit) : z.NoFlt ∧ z.val = ρ.dec (x.val + y.val) ∧ IntLe z (e + e') := by
  obtain ⟨z', h1, h2, h3⟩ := addR_noFlt (ρ := ρ) hx hy
  rw [h] at h1
  cases h1
  refine ⟨h2, ?_⟩
  rcases h3 with ⟨n, k, rfl, rfl, rfl⟩ | rfl
  · have a := he n rfl
    have b := he' k rfl
    simp only [PyNum.val] at hx0 hy0 ⊢
    constructor
    · have hb : |n + k| ≤ (limit : ℤ) := by
        have h0 : (0 : ℤ) ≤ n + k := by exact_mod_cast add_nonneg hx0 hy0
        rw [abs_of_nonneg h0]
        have : ((n + k : ℤ) : ℚ) ≤ ((limit : ℤ) : ℚ) := by push_cast; linarith
        exact_mod_cast this
      have := hr.int (n + k) hb
      push_cast at this ⊢
      exact this.symm
    · intro j hj
      cases hj
      push_cast
      linarith
  · exact ⟨rfl, fun n hn => by cases hn⟩

/-- A state of the matrix `m0` during a query. -/
def StateOf (m0 m : CM κ) : Prop := Sound m ∧ ∀ p a, cell m p a = cell m0 p a

theorem stateOf_classes {m0 m : CM κ} (h : StateOf m0 m) : StateOf m0 m.classes.2 :=
  ⟨(same_classes m (fun _ => True)).sound h.1, fun p a => by rw [cell_classes, h.2]⟩

theorem stateOf_read {m0 m : CM κ} (h : StateOf m0 m) (p a : κ) : StateOf m0 (m.read p a).2 :=
  ⟨(same_read m p a).sound h.1, fun p' a' => by rw [cell_read, h.2]⟩

theorem sumCellsR_bounds (hr : Faithful ρ.dec limit) {m0 : CM κ} (hm : Rounded ρ m0)
    (f : κ → κ × κ) (cs : List κ) {t : PyNum} {m : CM κ} (hs : StateOf m0 m) (ht : t.NoFlt)
    (ht0 : 0 ≤ t.val) {e : ℚ} (he : IntLe t e) {t' : PyNum} {m' : CM κ}
    (h : sumCellsR ρ f cs (t, m) = .ok (t', m')) :
    StateOf m0 m' ∧ t'.NoFlt ∧ 0 ≤ t'.val ∧
      IntLe t' (e + (cs.map (fun c => entry m0 (f c).1 (f c).2)).sum) ∧
      (∀ L, ρ.dec L = L → L ≤ t.val → L ≤ t'.val) ∧
      ∀ c ∈ cs, entry m0 (f c).1 (f c).2 ≤ t'.val := by
  induction cs generalizing t m e with
  | nil =>
    cases h
    exact ⟨hs, ht, ht0, by simpa using he, fun L _ h => h, by simp⟩
  | cons c cs ih =>
    rw [sumCellsR] at h
    simp only at h
    have hcell : (m.read (f c).1 (f c).2).1 = cell m0 (f c).1 (f c).2 := hs.2 _ _
    have hv := hm.noFloats (f c).1 (f c).2
    have hv0 := hm.nonNeg (f c).1 (f c).2
    rw [hcell] at h
    obtain ⟨z, h1, h2, h3⟩ := addR_noFlt (ρ := ρ) ht hv
    rw [h1] at h
    simp only at h
    have hlow : ∀ L, ρ.dec L = L → L ≤ t.val + (cell m0 (f c).1 (f c).2).val → L ≤ z.val :=
      fun L hL hle => addR_lower hr ht hv h1 hL hle
    have hz0 : 0 ≤ z.val := hlow 0 hr.zero (add_nonneg ht0 hv0)
    have hze : IntLe z (e + entry m0 (f c).1 (f c).2) := by
      rcases h3 with ⟨n, k, h4, h5, rfl⟩ | rfl
      · intro j hj
        cases hj
        have := he n h4
        unfold entry
        rw [h5]
        simp only [PyNum.val]
        push_cast
        linarith
      · intro j hj; cases hj
    obtain ⟨a1, a2, a3, a4, a5, a6⟩ := ih (stateOf_read hs _ _) h2 hz0 hze h
    refine ⟨a1, a2, a3, ?_, ?_, ?_⟩
    · rw [List.map_cons, List.sum_cons, ← add_assoc]; exact a4
    · intro L hL hle
      exact a5 L hL (hlow L hL (by linarith))
    · intro x hx
      rcases List.mem_cons.1 hx with rfl | hx
      · exact a5 _ (hm.kept _ _) (hlow _ (hm.kept _ _) (by unfold entry; linarith))
      · exact a6 x hx

/-- What is needed of a per-class function on the states of `m0`: values in [0,1] and parts in
order. -/
structure UnitFn (ρ : Rounding) (m0 : CM κ) (fnc : ClassFn κ) (E : κ → ℚ) : Prop where
  value : ∀ site m c x m', StateOf m0 m → fnc site m c false = .ok (.value x, m') →
    StateOf m0 m' ∧ x.NoFlt ∧ 0 ≤ x.val ∧ x.val ≤ 1 ∧ ρ.dec x.val = x.val
  part : ∀ site m c n d m', StateOf m0 m → fnc site m c true = .ok (.parts n d, m') →
    StateOf m0 m' ∧ n.NoFlt ∧ d.NoFlt ∧ 0 ≤ n.val ∧ n.val ≤ d.val ∧ IntLe n (E c) ∧ IntLe d (E c)

theorem divR_unit (hr : Faithful ρ.dec limit) (h1 : 1 ≤ limit) {n d : ℚ} (hn : 0 ≤ n) (hd : n ≤ d)
    {x : PyNum} (h : PyNum.truedivR ρ (.dec n) (.dec d) = .ok x) :
    x.NoFlt ∧ 0 ≤ x.val ∧ x.val ≤ 1 ∧ ρ.dec x.val = x.val := by
  unfold PyNum.truedivR at h
  rcases decDiv_cases n d with ⟨h0, h'⟩ | ⟨h0, e, h'⟩
  · rw [h'] at h
    cases h
    refine ⟨trivial, hr.nonneg (div_nonneg hn (hn.trans hd)), ?_, hr.idem _⟩
    have := hr.mono (show n / d ≤ 1 from div_le_one_of_le₀ hd (hn.trans hd))
    rw [hr.one h1] at this
    exact this
  · rw [h'] at h; cases h

theorem classRatioR_unit (hr : Faithful ρ.dec limit) (h1 : 1 ≤ limit) {m0 : CM κ}
    (hm : Rounded ρ m0) (o : ClassOrder κ)
    (pre : List ℕ → List ℕ) (f : κ → κ → κ × κ) (hf : ∀ c, f c c = (c, c))
    (hf' : ∀ c x, (f c x).1 = x ∨ (f c x).2 = x) :
    UnitFn ρ m0 (fun site m c rp => classRatioR ρ o (pre site) (f c) m c rp)
      (fun c => ∑ᶠ x, entry m0 (f c x).1 (f c x).2) := by
  have key : ∀ site m c, StateOf m0 m → ∀ d m2,
      sumCellsR ρ (f c) (o.order (pre site) m.classes.1) (.int 0, m.classes.2) = .ok (d, m2) →
      StateOf m0 m2 ∧ d.NoFlt ∧ 0 ≤ (cell m0 c c).val ∧ (cell m0 c c).val ≤ d.val ∧
        IntLe (cell m0 c c) (∑ᶠ x, entry m0 (f c x).1 (f c x).2) ∧
        IntLe d (∑ᶠ x, entry m0 (f c x).1 (f c x).2) := by
    intro site m c hs d m2 h
    have hS := classes_mem_of_sound hs.1
    obtain ⟨a1, a2, a3, a4, -, a6⟩ := sumCellsR_bounds hr hm (f c) _ (t := .int 0) (stateOf_classes hs) trivial
      (by simp [PyNum.val]) (e := 0) (fun n hn => by cases hn; simp) h
    have hin : ∀ x, entry m0 (f c x).1 (f c x).2 ≠ 0 → x ∈ m.classes.1 := by
      intro x hx
      have hx' : entry m (f c x).1 (f c x).2 ≠ 0 := by unfold entry; rw [hs.2]; exact hx
      have := entry_inUse hx'
      rcases hf' c x with h | h
      · rw [h] at this; exact hS.1 x this.1
      · rw [h] at this; exact hS.1 x this.2
    have hsum : ∑ᶠ x, entry m0 (f c x).1 (f c x).2 =
        ((o.order (pre site) m.classes.1).map (fun x => entry m0 (f c x).1 (f c x).2)).sum := by
      rw [sum_order, finsum_eq_sum hin]
    have hcc : entry m0 c c = entry m0 (f c c).1 (f c c).2 := by rw [hf]
    have hle : entry m0 c c ≤ d.val := by
      by_cases h0 : entry m0 c c = 0
      · rw [h0]; exact a3
      · rw [hcc]
        exact a6 c ((o.mem _ _ _).2 (hin c (by rwa [← hcc])))
    have hE : entry m0 c c ≤ ∑ᶠ x, entry m0 (f c x).1 (f c x).2 := by
      by_cases h0 : entry m0 c c = 0
      · rw [h0]
        exact finsum_nonneg (fun x => hm.nonNeg _ _)
      · rw [finsum_eq_sum hin, hcc]
        exact Finset.single_le_sum (f := fun x => entry m0 (f c x).1 (f c x).2)
          (fun x _ => hm.nonNeg _ _) (hin c (by rwa [← hcc]))
    refine ⟨a1, a2, hm.nonNeg c c, hle, ?_, ?_⟩
    · intro n hn
      refine le_trans (le_of_eq ?_) hE
      unfold entry; rw [hn]; rfl
    · rw [hsum]; simpa using a4
  constructor
  · intro site m c x m' hs h
    rw [classRatioR] at h
    simp only at h
    split at h
    · cases h
    · rename_i d m2 hd
      obtain ⟨a1, a2, a3, a4, -, -⟩ := key site m c hs d m2 hd
      have hcell : (m2.read c c).1 = cell m0 c c := a1.2 c c
      rw [hcell] at h
      have hst := stateOf_read a1 c c
      unfold finishClassR at h
      simp only [Bool.false_eq_true, if_false] at h
      cases hz : (cell m0 c c).isZeroObj with
      | true =>
        rw [hz] at h
        simp only [if_true] at h
        cases h
        exact ⟨hst, trivial, le_rfl, by simp [PyNum.val], hr.zero⟩
      | false =>
        rw [hz] at h
        simp only [Bool.false_eq_true, if_false] at h
        cases hq : PyNum.truedivR ρ (cell m0 c c).toDecimal d.toDecimal with
        | error e => rw [hq] at h; cases h
        | ok y =>
          rw [hq] at h
          cases h
          exact ⟨hst, divR_unit hr h1 a3 a4 hq⟩
  · intro site m c n d m' hs h
    rw [classRatioR] at h
    simp only at h
    split at h
    · cases h
    · rename_i d' m2 hd
      obtain ⟨a1, a2, a3, a4, a5, a6⟩ := key site m c hs d' m2 hd
      have hcell : (m2.read c c).1 = cell m0 c c := a1.2 c c
      rw [hcell] at h
      have hst := stateOf_read a1 c c
      unfold finishClassR at h
      simp only [if_true] at h
      cases h
      exact ⟨hst, hm.noFloats c c, a2, a3, a4, a5, a6⟩

theorem precisionR_unit (hr : Faithful ρ.dec limit) (h1 : 1 ≤ limit) {m0 : CM κ}
    (hm : Rounded ρ m0) (o : ClassOrder κ) :
    UnitFn ρ m0 (precisionClassR ρ o) (rowTotal m0) :=
  classRatioR_unit hr h1 hm o (fun s => 0 :: s) (fun c x => (c, x)) (fun _ => rfl)
    (fun _ _ => .inr rfl)

theorem recallR_unit (hr : Faithful ρ.dec limit) (h1 : 1 ≤ limit) {m0 : CM κ}
    (hm : Rounded ρ m0) (o : ClassOrder κ) :
    UnitFn ρ m0 (recallClassR ρ o) (colTotal m0) :=
  classRatioR_unit hr h1 hm o (fun s => 1 :: s) (fun c x => (x, c)) (fun _ => rfl)
    (fun _ _ => .inl rfl)

/-- The numerator of F1 does not exceed its denominator, whatever the rounding. -/
theorem f1_parts_le (hr : Faithful ρ.dec limit) (h2 : 2 ≤ limit) {p r : ℚ} (hp : 0 ≤ p ∧ p ≤ 1)
    (hr' : 0 ≤ r ∧ r ≤ 1) :
    0 ≤ ρ.dec (ρ.dec (2 * p) * r) ∧ ρ.dec (ρ.dec (2 * p) * r) ≤ ρ.dec (p + r) := by
  have h2p : 0 ≤ ρ.dec (2 * p) := hr.nonneg (by linarith [hp.1])
  refine ⟨hr.nonneg (mul_nonneg h2p hr'.1), ?_⟩
  rcases le_total r p with h | h
  · have htwo : ρ.dec 2 = 2 := by
      have := hr.int 2 (by norm_num; exact_mod_cast h2)
      simpa using this
    have hle : ρ.dec (2 * p) ≤ 2 := by
      have := hr.mono (show 2 * p ≤ 2 by linarith [hp.2])
      rwa [htwo] at this
    exact hr.mono (by nlinarith [hr'.1])
  · calc ρ.dec (ρ.dec (2 * p) * r) ≤ ρ.dec (ρ.dec (2 * p)) := hr.mono (by nlinarith [hr'.2])
      _ = ρ.dec (2 * p) := hr.idem _
      _ ≤ _ := hr.mono (by linarith)

theorem fmeasureR_unit (hr : Faithful ρ.dec limit) (hq : Faithful ρ.sq limit) (h2 : 2 ≤ limit)
    {m0 : CM κ} (hm : Rounded ρ m0) (o : ClassOrder κ) :
    UnitFn ρ m0 (fmeasureClassR ρ o 1) (fun _ => 0) := by
  have h1 : 1 ≤ limit := by omega
  have hsq : ρ.sq 1 = 1 := hq.one h1
  have htwo : ρ.dec (1 + 1) = 2 := by
    have := hr.int 2 (by norm_num; exact_mod_cast h2)
    rw [one_add_one_eq_two]
    simpa using this
  constructor
  · intro site m c x m' hs h
    unfold fmeasureClassR at h
    split at h
    · cases h
    · cases h
    · rename_i p m1 hp
      obtain ⟨a1, a2, a3, a4, a5⟩ := (precisionR_unit hr h1 hm o).value _ _ _ _ _ hs hp
      split at h
      · cases h
      · cases h
      · rename_i r m2 hr'
        obtain ⟨b1, b2, b3, b4, b5⟩ := (recallR_unit hr h1 hm o).value _ _ _ _ _ a1 hr'
        unfold fFromRatiosR at h
        simp only [hsq, htwo, one_mul, a5, Bool.false_eq_true, if_false, true_and] at h
        by_cases hz : p.val = 0 ∨ r.val = 0
        · rw [if_pos hz] at h
          cases h
          refine ⟨b1, trivial, by simp [PyNum.val], by simp [PyNum.val], ?_⟩
          simpa [PyNum.val] using hr.zero
        · rw [if_neg hz] at h
          have hb := f1_parts_le hr h2 ⟨a3, a4⟩ ⟨b3, b4⟩
          cases hd : PyNum.truedivR ρ (.dec (ρ.dec (ρ.dec (2 * p.val) * r.val)))
              (.dec (ρ.dec (p.val + r.val))) with
          | error e => rw [hd] at h; cases h
          | ok y =>
            rw [hd] at h
            cases h
            exact ⟨b1, divR_unit hr h1 hb.1 hb.2 hd⟩
  · intro site m c n d m' hs h
    unfold fmeasureClassR at h
    split at h
    · cases h
    · cases h
    · rename_i p m1 hp
      obtain ⟨a1, a2, a3, a4, a5⟩ := (precisionR_unit hr h1 hm o).value _ _ _ _ _ hs hp
      split at h
      · cases h
      · cases h
      · rename_i r m2 hr'
        obtain ⟨b1, b2, b3, b4, b5⟩ := (recallR_unit hr h1 hm o).value _ _ _ _ _ a1 hr'
        unfold fFromRatiosR at h
        simp only [hsq, htwo, one_mul, a5, Bool.true_eq_false, false_and, if_false, if_true] at h
        have hb := f1_parts_le hr h2 ⟨a3, a4⟩ ⟨b3, b4⟩
        cases h
        exact ⟨b1, trivial, trivial, hb.1, hb.2, (fun _ h => by cases h),
          (fun _ h => by cases h)⟩

theorem microLoopR_unit (hr : Faithful ρ.dec limit) {m0 : CM κ} {fnc : ClassFn κ} {E : κ → ℚ}
    (hf : UnitFn ρ m0 fnc E) (hE : ∀ c, 0 ≤ E c) (site : List ℕ) (k : ℕ) (cs : List κ)
    {n d : PyNum} {m : CM κ}
    (hs : StateOf m0 m) (hn : n.NoFlt) (hd : d.NoFlt) (hn0 : 0 ≤ n.val) (hnd : n.val ≤ d.val)
    {e : ℚ} (he : IntLe n e) (he' : IntLe d e) (hl : e + (cs.map E).sum ≤ limit)
    {n' d' : PyNum} {m' : CM κ} (h : microLoopR ρ fnc site k cs (n, d) m = .ok ((n', d'), m')) :
    n'.NoFlt ∧ d'.NoFlt ∧ 0 ≤ n'.val ∧ n'.val ≤ d'.val := by
  induction cs generalizing k n d m e with
  | nil => cases h; exact ⟨hn, hd, hn0, hnd⟩
  | cons c cs ih =>
    rw [List.map_cons, List.sum_cons] at hl
    have hnn : 0 ≤ (cs.map E).sum := by
      apply List.sum_nonneg
      intro y hy
      obtain ⟨z, -, rfl⟩ := List.mem_map.1 hy
      exact hE z
    rw [microLoopR] at h
    split at h
    · cases h
    · cases h
    · rename_i n1 d1 m1 h1
      obtain ⟨a1, a2, a3, a4, a5, a6, a7⟩ := hf.part _ _ _ _ _ _ hs h1
      split at h
      · cases h
      · rename_i n2 hn2
        split at h
        · cases h
        · rename_i d2 hd2
          obtain ⟨b1, b2, b3⟩ := addR_round hr hn a2 hn0 a4 hn2 he a6 (by linarith)
          obtain ⟨c1, c2, c3⟩ := addR_round hr hd a3 (hn0.trans hnd) (a4.trans a5) hd2 he' a7
            (by linarith)
          refine ih (k + 1) a1 b1 c1 ?_ ?_ b3 c3 (by linarith) h
          · rw [b2]; exact hr.nonneg (add_nonneg hn0 a4)
          · rw [b2, c2]; exact hr.mono (by linarith)

theorem macroLoop_unit {m0 : CM κ} {fnc : ClassFn κ} {E : κ → ℚ}
    (hf : UnitFn ρ m0 fnc E) (site : List ℕ) (k : ℕ) (cs : List κ) {acc acc' : List PyNum}
    {m m' : CM κ} (hs : StateOf m0 m) (ha : ∀ x ∈ acc, x.NoFlt ∧ 0 ≤ x.val ∧ x.val ≤ 1)
    (h : macroLoop fnc site k cs acc m = .ok (acc', m')) :
    (∀ x ∈ acc', x.NoFlt ∧ 0 ≤ x.val ∧ x.val ≤ 1) ∧ acc'.length = acc.length + cs.length := by
  induction cs generalizing k acc m with
  | nil => cases h; exact ⟨ha, rfl⟩
  | cons c cs ih =>
    rw [macroLoop] at h
    split at h
    · cases h
    · cases h
    · rename_i v m1 h1
      obtain ⟨a1, a2, a3, a4, -⟩ := hf.value _ _ _ _ _ hs h1
      obtain ⟨b1, b2⟩ := ih (k + 1) (acc := acc ++ [v]) a1 (by
        intro x hx
        rcases List.mem_append.1 hx with hx | hx
        · exact ha x hx
        · rw [List.mem_singleton.1 hx]; exact ⟨a2, a3, a4⟩) h
      exact ⟨b1, by rw [b2]; simp; ring⟩

theorem valueR_unit (hr : Faithful ρ.dec limit) (h1 : 1 ≤ limit) {m0 : CM κ} {fnc : ClassFn κ}
    {E : κ → ℚ} (hf : UnitFn ρ m0 fnc E) (hE : ∀ c, 0 ≤ E c) (o : ClassOrder κ) (hs : Sound m0)
    (hl : ∑ c ∈ m0.classes.1, E c ≤ limit) (hc : m0.classes.1.card ≤ limit) (site : List ℕ)
    (cl : Option κ) (v : Average) {x : PyNum} {m' : CM κ}
    (h : valueMicroMacroR ρ o fnc site cl v m0 = .ok (x, m')) :
    x.NoFlt ∧ 0 ≤ x.val ∧ x.val ≤ 1 := by
  have h0 := stateOf_classes (m0 := m0) ⟨hs, fun _ _ => rfl⟩
  unfold valueMicroMacroR at h
  simp only at h
  cases cl with
  | some c =>
    simp only at h
    split at h
    · cases h
    · cases h
    · rename_i y m1 h2
      cases h
      obtain ⟨-, a2, a3, a4, -⟩ := hf.value _ _ _ _ _ h0 h2
      exact ⟨a2, a3, a4⟩
  | none =>
    match v with
    | .other => cases h
    | .micro =>
      simp only at h
      split at h
      · cases h
      · rename_i n d m1 h2
        obtain ⟨a1, a2, a3, a4⟩ := microLoopR_unit hr hf hE site 0 _ (n := .int 0)
          (d := .int 0) h0 trivial trivial (by simp [PyNum.val]) le_rfl
          (e := 0) (fun n hn => by cases hn; simp) (fun n hn => by cases hn; simp)
          (by rw [sum_order, zero_add]; exact hl) h2
        split at h
        · cases h
          exact ⟨trivial, by simp [PyNum.val], by simp [PyNum.val]⟩
        · split at h
          · cases h
          · rename_i y hy
            cases h
            have hy' : PyNum.truedivR ρ (.dec n.val) (.dec d.val) = .ok x := by
              rw [← hy]
              cases d with
              | flt q => exact absurd a2 id
              | int q => rfl
              | dec q => rfl
            obtain ⟨b1, b2, b3, -⟩ := divR_unit hr h1 a3 a4 hy'
            exact ⟨b1, b2, b3⟩
    | .macro =>
      simp only at h
      split at h
      · cases h
      · rename_i vs m1 h2
        obtain ⟨a1, a2⟩ := macroLoop_unit hf site 0 _ h0 (by simp) h2
        split at h
        · cases h
        · rename_i y hy
          cases h
          by_cases hne : vs = []
          · subst hne
            cases hy
            exact ⟨trivial, by simp [PyNum.val], by simp [PyNum.val]⟩
          · rw [pyMeanR_dec ρ vs (fun x hx => (a1 x hx).1) hne] at hy
            cases hy
            have hlen : vs.length ≤ limit := by
              rw [a2]
              have hx : (o.order (2 :: site) m0.classes.1).toFinset = m0.classes.1 := by
                ext x; rw [List.mem_toFinset, o.mem]
              have := List.toFinset_card_of_nodup (o.nodup (2 :: site) m0.classes.1)
              rw [hx] at this
              simp only [List.length_nil, zero_add]
              omega
            have := roundedMean_bounds hr (vs.map PyNum.val) (by simpa using hne) 0 1 (by
              intro y hy
              obtain ⟨z, hz, rfl⟩ := List.mem_map.1 hy
              have := a1 z hz
              exact ⟨by simpa using this.2.1, by simpa using this.2.2⟩) (by simp)
              (by simpa using hlen)
            refine ⟨trivial, ?_, ?_⟩
            · simpa [PyNum.val] using this.1
            · simpa [PyNum.val] using this.2

omit [DecidableEq κ] in
theorem answer_some {r : MPy κ PyNum} {x : ℚ} (h : answer r = some x) :
    ∃ y m', r = .ok (y, m') ∧ y.val = x := by
  unfold answer at h
  split at h
  · cases h; exact ⟨_, _, rfl, rfl⟩
  · cases h

theorem rangeR_of_sound (hr : Faithful ρ.dec limit) (hq : Faithful ρ.sq limit) (h2 : 2 ≤ limit)
    (o : ClassOrder κ) (site : List ℕ) {m : CM κ} (hs : Sound m) (hm : Rounded ρ m)
    (ht : grandTotal m ≤ limit) (hc : m.classes.1.card ≤ limit) (q : Query κ) (hb : q.Balanced)
    {x : ℚ} (hx : answer (q.runR ρ o site m) = some x) : 0 ≤ x ∧ x ≤ 1 := by
  have h1 : 1 ≤ limit := by omega
  have hS := classes_mem_of_sound hs
  obtain ⟨y, m', h, rfl⟩ := answer_some hx
  cases q with
  | precision c v =>
    refine (valueR_unit hr h1 (precisionR_unit hr h1 hm o) ?_ o hs ?_ hc site c v h).2
    · intro c
      exact finsum_nonneg (fun x => hm.nonNeg _ _)
    · refine le_trans (le_of_eq ?_) ht
      rw [← sum_row_eq, finsum_eq_sum]
      intro c h0
      apply hS.1
      by_contra h3
      exact h0 (rowTotal_off h3)
  | recall c v =>
    refine (valueR_unit hr h1 (recallR_unit hr h1 hm o) ?_ o hs ?_ hc site c v h).2
    · intro c
      exact finsum_nonneg (fun x => hm.nonNeg _ _)
    · refine le_trans (le_of_eq ?_) ht
      rw [← sum_col_eq, finsum_eq_sum]
      intro c h0
      apply hS.1
      by_contra h3
      exact h0 (colTotal_off h3)
  | fmeasure c beta v =>
    have hb' : beta = 1 := hb
    subst hb'
    refine (valueR_unit hr h1 (fmeasureR_unit hr hq h2 hm o) (fun _ => le_rfl) o hs ?_ hc site c v
      h).2
    simp

/-! ## Matrices of ints -/

/-- Round the answer of a query, keep what it leaves behind. -/
def rndAnswer (ρ : Rounding) (r : MPy κ PyNum) : MPy κ PyNum :=
  match r with
  | .ok (x, m) => .ok (x.rnd ρ, m)
  | .error e => .error e

def rndOut (ρ : Rounding) (r : MPy κ ClassOut) : MPy κ ClassOut :=
  match r with
  | .ok (.value x, m) => .ok (.value (x.rnd ρ), m)
  | .ok (.parts n d, m) => .ok (.parts n d, m)
  | .error e => .error e

theorem intCells_read {m : CM κ} (h : IntCells m) (p a : κ) : IntCells (m.read p a).2 :=
  fun p' a' => by rw [cell_read]; exact h p' a'

theorem intCells_classes {m : CM κ} (h : IntCells m) : IntCells m.classes.2 :=
  fun p' a' => by rw [cell_classes]; exact h p' a'

theorem sumCellsR_int (ρ : Rounding) (f : κ → κ × κ) (cs : List κ) (n : ℤ) {m : CM κ}
    (hm : IntCells m) : sumCellsR ρ f cs (.int n, m) = sumCells f cs (.int n, m) ∧
      ∃ (k : ℤ) (m' : CM κ), sumCells f cs (.int n, m) = .ok (.int k, m') ∧ IntCells m' := by
  induction cs generalizing n m with
  | nil => exact ⟨rfl, n, m, rfl, hm⟩
  | cons c cs ih =>
    obtain ⟨k, hk⟩ := hm (f c).1 (f c).2
    have hk' : (m.read (f c).1 (f c).2).1 = .int k := hk
    have := ih (n + k) (intCells_read hm (f c).1 (f c).2)
    rw [sumCellsR, sumCells]
    simp only [hk', PyNum.addR, PyNum.add, PyNum.rnd]
    exact this

theorem classRatioR_int (hr : ρ.dec 0 = 0) (o : ClassOrder κ) (site : List ℕ) (f : κ → κ × κ)
    {m : CM κ} (hm : IntCells m) (c : κ) (rp : Bool) :
    classRatioR ρ o site f m c rp = rndOut ρ (classRatio o site f m c rp) ∧
      ∀ out m', classRatio o site f m c rp = .ok (out, m') → IntCells m' ∧
        (rp = true → ∃ n d : ℤ, out = .parts (.int n) (.int d)) := by
  obtain ⟨h1, d, m2, h2, h3⟩ := sumCellsR_int ρ f (o.order site m.classes.1) 0 (intCells_classes hm)
  obtain ⟨n, hn⟩ := h3 c c
  have hn' : (m2.read c c).1 = .int n := hn
  have h4 := intCells_read h3 c c
  rw [classRatioR, classRatio]
  simp only
  rw [h1, h2]
  simp only [hn']
  unfold finishClassR finishClass
  cases rp with
  | true =>
    simp only [if_true]
    refine ⟨rfl, ?_⟩
    intro out m' h
    cases h
    exact ⟨h4, fun _ => ⟨n, d, rfl⟩⟩
  | false =>
    simp only [Bool.false_eq_true, if_false]
    cases hz : (PyNum.int n).isZeroObj with
    | true =>
      simp only [if_true]
      refine ⟨by simp [rndOut, PyNum.rnd, hr], ?_⟩
      intro out m' h
      cases h
      exact ⟨h4, fun h => by cases h⟩
    | false =>
      simp only [Bool.false_eq_true, if_false]
      unfold PyNum.truedivR
      cases hq : (PyNum.int n).toDecimal.truediv (PyNum.int d).toDecimal with
      | error e => exact ⟨rfl, fun out m' h => by cases h⟩
      | ok x =>
        refine ⟨rfl, ?_⟩
        intro out m' h
        cases h
        exact ⟨h4, fun h => by cases h⟩

/-- What is needed of a per-class ratio on a matrix of ints. -/
def IntFn (ρ : Rounding) (fnc fncR : ClassFn κ) : Prop :=
  ∀ site m c rp, IntCells m → fncR site m c rp = rndOut ρ (fnc site m c rp) ∧
    ∀ out m', fnc site m c rp = .ok (out, m') → IntCells m' ∧
      (rp = true → ∃ n d : ℤ, out = .parts (.int n) (.int d))

theorem microLoopR_int {fnc fncR : ClassFn κ} (hf : IntFn ρ fnc fncR) (site : List ℕ) (k : ℕ)
    (cs : List κ) (n d : ℤ) {m : CM κ} (hm : IntCells m) :
    microLoopR ρ fncR site k cs (.int n, .int d) m = microLoop fnc site k cs (.int n, .int d) m := by
  induction cs generalizing k n d m with
  | nil => rfl
  | cons c cs ih =>
    obtain ⟨h1, h2⟩ := hf (k :: site) m c true hm
    rw [microLoopR, microLoop, h1]
    cases h : fnc (k :: site) m c true with
    | error e => rfl
    | ok r =>
      obtain ⟨out, m'⟩ := r
      obtain ⟨h3, h4⟩ := h2 out m' h
      obtain ⟨n', d', rfl⟩ := h4 rfl
      exact ih (k + 1) (n + n') (d + d') h3

theorem valueR_int (o : ClassOrder κ) {fnc fncR : ClassFn κ}
    (hf : IntFn ρ fnc fncR) (site : List ℕ) (cl : Option κ) (v : Average)
    (hv : cl ≠ none ∨ v ≠ .macro) {m : CM κ} (hm : IntCells m) :
    valueMicroMacroR ρ o fncR site cl v m = rndAnswer ρ (valueMicroMacro o fnc site cl v m) := by
  unfold valueMicroMacroR valueMicroMacro
  simp only
  cases cl with
  | some c =>
    simp only
    rw [(hf (0 :: site) _ c false (intCells_classes hm)).1]
    cases fnc (0 :: site) m.classes.2 c false with
    | error e => rfl
    | ok r =>
      obtain ⟨out, m'⟩ := r
      cases out <;> rfl
  | none =>
    match v with
    | .other => rfl
    | .macro => simp at hv
    | .micro =>
      simp only
      rw [microLoopR_int hf site 0 _ 0 0 (intCells_classes hm)]
      cases microLoop fnc site 0 (o.order (2 :: site) m.classes.1) (.int 0, .int 0) m.classes.2 with
      | error e => rfl
      | ok r =>
        obtain ⟨⟨n, d⟩, m'⟩ := r
        simp only
        split
        · rfl
        · unfold PyNum.truedivR
          cases n.toDecimal.truediv d <;> rfl

/-- Answers about counts are the int 0 or a `Decimal`. -/
theorem ratio_answer (o : ClassOrder κ) (pre : List ℕ → List ℕ) (f : κ → κ → κ × κ) (site : List ℕ)
    (cl : Option κ) (v : Average) (hv : cl ≠ none ∨ v ≠ .macro) {m : CM κ} (hm : IntCells m)
    {x : PyNum} {m' : CM κ}
    (h : valueMicroMacro o (fun site m c rp => classRatio o (pre site) (f c) m c rp) site cl v m =
      .ok (x, m')) : x = .int 0 ∨ ∃ q, x = .dec q := by
  have hdiv : ∀ (n d : PyNum) (y : PyNum), d.NoFlt → n.toDecimal.truediv d = .ok y →
      ∃ q, y = .dec q := by
    intro n d y hd hy
    cases d with
    | flt q => exact absurd hd id
    | int k =>
      have : (PyNum.dec n.val).truediv (.dec (k : ℚ)) = .ok y := hy
      rcases decDiv_cases n.val k with ⟨_, h⟩ | ⟨_, e, h⟩
      · rw [h] at this; cases this; exact ⟨_, rfl⟩
      · rw [h] at this; cases this
    | dec k =>
      have : (PyNum.dec n.val).truediv (.dec k) = .ok y := hy
      rcases decDiv_cases n.val k with ⟨_, h⟩ | ⟨_, e, h⟩
      · rw [h] at this; cases this; exact ⟨_, rfl⟩
      · rw [h] at this; cases this
  unfold valueMicroMacro at h
  simp only at h
  cases cl with
  | some c =>
    simp only at h
    split at h
    · cases h
    · cases h
    · rename_i y m1 h2
      cases h
      unfold classRatio at h2
      simp only at h2
      split at h2
      · cases h2
      · rename_i d m2 hd
        unfold finishClass at h2
        simp only [Bool.false_eq_true, if_false] at h2
        split at h2
        · cases h2
        · rename_i out hout
          split at hout
          · cases hout; cases h2; exact .inr ⟨_, rfl⟩
          · split at hout
            · cases hout
            · rename_i z hz
              cases hout
              cases h2
              exact .inr (hdiv _ d.toDecimal _ trivial hz)
  | none =>
    match v with
    | .other => cases h
    | .macro => simp at hv
    | .micro =>
      simp only at h
      have hf : IntFn .exact (fun site m c rp => classRatio o (pre site) (f c) m c rp)
          (fun site m c rp => classRatioR .exact o (pre site) (f c) m c rp) :=
        fun site m c rp hm => classRatioR_int rfl o (pre site) (f c) hm c rp
      have hd : ∀ (cs : List κ) (k : ℕ) (n d : ℤ) (m : CM κ), IntCells m → ∀ n' d' m',
          microLoop (fun site m c rp => classRatio o (pre site) (f c) m c rp) site k cs
            (.int n, .int d) m = .ok ((n', d'), m') → d'.NoFlt := by
        intro cs
        induction cs with
        | nil => intro k n d m _ n' d' m' h; cases h; trivial
        | cons c cs ih =>
          intro k n d m hm n' d' m' h
          rw [microLoop] at h
          have h2 := (hf (k :: site) m c true hm).2
          simp only at h h2
          split at h
          · cases h
          · cases h
          · rename_i a b m1 h1
            obtain ⟨h3, h4⟩ := h2 _ _ h1
            obtain ⟨n1, d1, h5⟩ := h4 (by trivial)
            cases h5
            exact ih (k + 1) (n + n1) (d + d1) m1 h3 n' d' m' h
      split at h
      · cases h
      · rename_i n d m1 h2
        have := hd _ _ _ _ _ (intCells_classes hm) _ _ _ h2
        split at h
        · cases h; exact .inl rfl
        · split at h
          · cases h
          · rename_i y hy
            cases h
            exact .inr (hdiv _ _ _ this hy)

end SegEval
