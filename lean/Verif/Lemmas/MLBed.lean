import Verif.Lemmas.MLRange

namespace SegEval

open Spec

section Loop

variable {κ : Type _} [DecidableEq κ]

theorem add_val {x y z : PyNum} (h : x.add y = .ok z) : z.val = x.val + y.val := by
  cases x <;> cases y <;> cases h <;> simp [PyNum.val]

theorem entry_incr {m m' : CM κ} {p a : κ} {v : PyNum} (h : m.incr p a v = .ok m') (p' a' : κ) :
    entry m' p' a' = entry m p' a' + (if p = p' ∧ a = a' then v.val else 0) := by
  obtain ⟨new, h1, rfl⟩ := incr_inv h
  unfold entry
  rw [cell_write, cell_read]
  by_cases hc : p' = p ∧ a' = a
  · rw [if_pos hc, if_pos ⟨hc.1.symm, hc.2.symm⟩, add_val h1, hc.1, hc.2]
  · rw [if_neg hc, if_neg (fun h => hc ⟨h.1.symm, h.2.symm⟩), add_zero]

theorem loop_incr {α : Type _} (f : CM κ → α → Py (CM κ)) (kp ka : α → κ) (v : α → ℚ)
    (hf : ∀ m x m', f m x = .ok m' → ∃ y : PyNum, y.val = v x ∧ m.incr (kp x) (ka x) y = .ok m')
    (l : List α) {m m' : CM κ} (h : forLoop l m f = .ok m') (p a : κ) :
    entry m' p a = entry m p a +
      (l.map (fun x => if kp x = p ∧ ka x = a then v x else 0)).sum := by
  induction l generalizing m with
  | nil => cases h; simp
  | cons x xs ih =>
    simp only [forLoop] at h
    cases h1 : f m x with
    | error e => rw [h1] at h; cases h
    | ok m1 =>
      rw [h1] at h
      obtain ⟨y, hy, h2⟩ := hf m x m1 h1
      rw [ih h, entry_incr h2, hy, List.map_cons, List.sum_cons, add_assoc]

/-- A matrix made by increments is reachable. -/
theorem history_append (o : ClassOrder κ) (k : ℕ) (m m' : CM κ) (ops : List (MOp κ)) (op : MOp κ)
    (h : history o k m ops = .ok m') :
    history o k m (ops ++ [op]) = op.run o [k + ops.length] m' := by
  induction ops generalizing k m with
  | nil =>
    cases h
    simp only [List.nil_append, history, List.length_nil, Nat.add_zero]
    cases h1 : op.run o [k] m' with
    | error e => rfl
    | ok m1 => rfl
  | cons x xs ih =>
    rw [history] at h
    cases h1 : x.run o [k] m with
    | error e => rw [h1] at h; cases h
    | ok m1 =>
      rw [h1] at h
      rw [List.cons_append, history, h1]
      simp only
      rw [ih (k + 1) m1 h, List.length_cons, Nat.add_assoc, Nat.add_comm 1]

theorem reachable_step {m m' : CM κ} {p a : κ} {v : PyNum} (hr : Reachable m)
    (h : m.incr p a v = .ok m') : Reachable m' := by
  obtain ⟨o, k, ops, h0⟩ := hr
  refine ⟨o, k, ops ++ [.incr p a v], ?_⟩
  rw [history_append o k {} m ops _ h0]
  exact h

theorem reachable_loop {α : Type _} (f : CM κ → α → Py (CM κ))
    (hf : ∀ m x m', f m x = .ok m' → ∃ p a y, m.incr p a y = .ok m')
    (l : List α) {m m' : CM κ} (hr : Reachable m) (h : forLoop l m f = .ok m') : Reachable m' := by
  induction l generalizing m with
  | nil => cases h; exact hr
  | cons x xs ih =>
    simp only [forLoop] at h
    cases h1 : f m x with
    | error e => rw [h1] at h; cases h
    | ok m1 =>
      rw [h1] at h
      obtain ⟨p, a, y, h2⟩ := hf m x m1 h1
      exact ih (reachable_step hr h2) h

theorem entry_empty (p a : κ) : entry ({} : CM κ) p a = 0 := by
  unfold entry; rw [cell_eq]; simp [CM.row, dictGet, PyNum.val]

end Loop

section Bed

theorem addTranspositions_step (w : Weights) (nT : ℤ) (m : CM BLabel) (t : Transposition)
    (m' : CM BLabel)
    (h : addTransposition w nT m t = .ok m') :
    ∃ y : PyNum, y.val = credit w nT t ∧ m.incr (some t.type) (some t.type) y = .ok m' := by
  unfold addTransposition at h
  unfold credit
  cases hw : w.t [t] nT with
  | error e => rw [hw] at h; cases h
  | ok v => rw [hw] at h; exact ⟨v, rfl, h⟩

/-- The cell an addition is counted in. -/
def additionCell (d : Addition) : BLabel × BLabel :=
  match d.side with
  | .a => (none, some d.type)
  | .b => (some d.type, none)

theorem addAdditions_eq (m : CM BLabel) (l : List Addition) : addAdditions m l =
    forLoop l m (fun m d => m.incr (additionCell d).1 (additionCell d).2 (.int 1)) := by
  unfold addAdditions
  apply forLoop_congr
  intro m d _
  unfold additionCell addAddition
  cases d.side <;> rfl

theorem matrix_inv {w : Weights} {nT : ℤ} {st : Statistics} {m : CM BLabel}
    (h : matrixOfStatistics w nT st = .ok m) : Reachable m ∧ ∀ p a, entry m p a =
      (st.matches'.map (fun t => if some t = p ∧ some t = a then (1 : ℚ) else 0)).sum +
      (st.edits.transpositions.map
        (fun t => if some t.type = p ∧ some t.type = a then credit w nT t else 0)).sum +
      (st.edits.substitutions.map
        (fun s => if some s.typeA = p ∧ some s.typeB = a then (1 : ℚ) else 0)).sum +
      (st.edits.additions.map
        (fun d => if (additionCell d).1 = p ∧ (additionCell d).2 = a then (1 : ℚ) else 0)).sum := by
  unfold matrixOfStatistics at h
  cases h1 : addMatches {} st.matches' with
  | error e => rw [h1] at h; cases h
  | ok m1 =>
    rw [h1] at h
    simp only at h
    cases h2 : addTranspositions w nT m1 st.edits.transpositions with
    | error e => rw [h2] at h; cases h
    | ok m2 =>
      rw [h2] at h
      simp only at h
      cases h3 : addSubstitutions m2 st.edits.substitutions with
      | error e => rw [h3] at h; cases h
      | ok m3 =>
        rw [h3] at h
        simp only at h
        rw [addAdditions_eq] at h
        unfold addMatches at h1
        unfold addTranspositions at h2
        unfold addSubstitutions at h3
        constructor
        · have r0 : Reachable ({} : CM BLabel) :=
            ⟨⟨fun _ S => S.toList, fun _ S => S.nodup_toList, fun _ S x => Finset.mem_toList⟩,
              0, [], rfl⟩
          have r1 := reachable_loop _ (fun m x m' h => ⟨_, _, _, h⟩) _ r0 h1
          have r2 := reachable_loop _ (fun m x m' h => by
            obtain ⟨y, _, hy⟩ := addTranspositions_step w nT m x m' h
            exact ⟨_, _, _, hy⟩) _ r1 h2
          have r3 := reachable_loop _ (fun m x m' h => ⟨_, _, _, h⟩) _ r2 h3
          exact reachable_loop _ (fun m x m' h => ⟨_, _, _, h⟩) _ r3 h
        · intro p a
          rw [loop_incr _ (fun d => (additionCell d).1) (fun d => (additionCell d).2) (fun _ => 1)
              (fun m x m' h => ⟨.int 1, by simp [PyNum.val], h⟩) _ h,
            loop_incr _ (fun s : Substitution => some s.typeA) (fun s => some s.typeB) (fun _ => 1)
              (fun m x m' h => ⟨.int 1, by simp [PyNum.val], h⟩) _ h3,
            loop_incr _ (fun t : Transposition => some t.type) (fun t => some t.type) (credit w nT)
              (fun m x m' h => addTranspositions_step w nT m x m' h) _ h2,
            loop_incr _ (fun t => some t) (fun t => some t) (fun _ => 1)
              (fun m x m' h => ⟨.int 1, by simp [PyNum.val], h⟩) _ h1, entry_empty, zero_add]

theorem sum_ite_count {α : Type _} (l : List α) (P : α → Prop) [DecidablePred P] :
    (l.map (fun x => if P x then (1 : ℚ) else 0)).sum = (l.countP (fun x => decide (P x)) : ℕ) := by
  induction l with
  | nil => simp
  | cons x xs ih =>
    rw [List.map_cons, List.sum_cons, ih, List.countP_cons]
    by_cases h : P x
    · simp [h, add_comm]
    · simp [h]

theorem sum_all_zero {α : Type _} (l : List α) (f : α → ℚ) (h : ∀ x ∈ l, f x = 0) :
    (l.map f).sum = 0 := by
  induction l with
  | nil => rfl
  | cons x xs ih =>
    rw [List.map_cons, List.sum_cons, h x (by simp), ih (fun y hy => h y (by simp [hy])), add_zero]

theorem finsum_keys {α β : Type _} [DecidableEq β] (l : List α) (k : α → β) (v : α → ℚ) :
    ∑ᶠ t, (l.map (fun x => if k x = t then v x else 0)).sum = (l.map v).sum := by
  have hz : ∀ (l : List α) t, (l.map (fun x => if k x = t then v x else 0)).sum ≠ 0 →
      t ∈ (l.map k).toFinset := by
    intro l t h
    by_contra h0
    apply h
    apply sum_all_zero
    intro x hx
    rw [if_neg]
    rintro rfl
    exact h0 (by rw [List.mem_toFinset]; exact List.mem_map_of_mem hx)
  induction l with
  | nil => simp
  | cons x xs ih =>
    simp only [List.map_cons, List.sum_cons]
    rw [finsum_add_distrib, ih]
    · congr 1
      rw [finsum_eq_single _ (k x)]
      · simp
      · intro t ht; rw [if_neg (Ne.symm ht)]
    · apply Set.Finite.subset (Set.finite_singleton (k x))
      intro t ht
      rw [Function.mem_support] at ht
      by_contra h0
      exact ht (if_neg (fun h => h0 h.symm))
    · apply Set.Finite.subset (xs.map k).toFinset.finite_toSet
      intro t ht
      exact hz xs t ht

theorem count_matches (rt : Runtime) {a b : BString} (hl : a.length = b.length) (t : ℤ) :
    (matchesFrom rt 0 (a.zip b)).countP (fun x => decide (x = t)) = matchesOf a b t := by
  have key : ∀ (ps : List (Finset ℤ × Finset ℤ)) i,
      (matchesFrom rt i ps).countP (fun x => decide (x = t)) =
      (ps.map (fun p => if t ∈ p.1 ∩ p.2 then 1 else 0)).sum := by
    intro ps
    induction ps with
    | nil => intro i; rfl
    | cons p ps ih =>
      intro i
      rw [matchesFrom, List.countP_append, ih, List.map_cons, List.sum_cons]
      congr 1
      have hn := rt.order_nodup [4, i] (p.1 ∩ p.2)
      have hm : t ∈ rt.order [4, i] (p.1 ∩ p.2) ↔ t ∈ p.1 ∩ p.2 := by
        rw [← List.mem_toFinset, rt.order_toFinset]
      have hc : (rt.order [4, i] (p.1 ∩ p.2)).countP (fun x => decide (x = t)) =
          (rt.order [4, i] (p.1 ∩ p.2)).count t := by
        unfold List.count
        congr 1
      rw [hc, hn.count]
      simp only [hm]
  rw [key, zip_eq_map a b hl, List.map_map, list_sum_range, matchesOf, Finset.card_filter]
  rfl

end Bed

end SegEval

namespace SegEval

open Spec

variable {κ : Type _} [DecidableEq κ]

/-! ## Labels after a history -/

theorem hasLabel_read (m : CM κ) (p a l : κ) :
    HasLabel (m.read p a).2 l ↔ HasLabel m l ∨ l = p ∨ l = a := by
  constructor
  · exact (same_read m p a).only l
  · rintro (h | h)
    · exact (same_read m p a).more l h
    · unfold CM.read
      simp only [CM.row_touch]
      cases hg : dictGet (m.row p) a with
      | none => exact (hasLabel_write _ _ _ _ _).2 (.inr h)
      | some v =>
        simp only
        rw [hasLabel_touch]
        rcases h with h | h
        · exact .inr h
        · left
          subst h
          unfold CM.row at hg
          cases hr : dictGet m.rows p with
          | none => rw [hr] at hg; simp [dictGet] at hg
          | some r =>
            rw [hr] at hg
            exact ⟨_, dictGet_mem hr, .inr ⟨_, dictGet_mem hg, rfl⟩⟩

theorem classRatio_adds (o : ClassOrder κ) (site : List ℕ) (f : κ → κ × κ) (m : CM κ) (c : κ)
    (rp : Bool) {out : ClassOut} {m' : CM κ} (h : classRatio o site f m c rp = .ok (out, m')) :
    HasLabel m' c := by
  rw [classRatio] at h
  simp only at h
  cases h1 : sumCells f (o.order site m.classes.1) (.int 0, m.classes.2) with
  | error e => rw [h1] at h; cases h
  | ok r =>
    obtain ⟨d, m2⟩ := r
    rw [h1] at h
    simp only at h
    cases hfin : finishClass rp (m2.read c c).1 d with
    | error e => rw [hfin] at h; cases h
    | ok out' =>
      rw [hfin] at h; cases h
      exact (hasLabel_read m2 c c c).2 (.inr (.inl rfl))

theorem fmeasureClass_adds (o : ClassOrder κ) (beta : ℚ) (site : List ℕ) (m : CM κ) (c : κ)
    (rp : Bool) {out : ClassOut} {m' : CM κ} (h : fmeasureClass o beta site m c rp = .ok (out, m')) :
    HasLabel m' c := by
  unfold fmeasureClass at h
  cases h1 : precisionClass o site m c false with
  | error e => rw [h1] at h; cases h
  | ok r =>
    obtain ⟨x, m1⟩ := r
    rw [h1] at h
    cases x with
    | parts _ _ => cases h
    | value p =>
      simp only at h
      cases h2 : recallClass o site m1 c false with
      | error e => rw [h2] at h; cases h
      | ok r =>
        obtain ⟨y, m2⟩ := r
        rw [h2] at h
        cases y with
        | parts _ _ => cases h
        | value q =>
          simp only at h
          cases h3 : fFromRatios beta rp p.val q.val with
          | error e => rw [h3] at h; cases h
          | ok z =>
            rw [h3] at h
            cases h
            exact classRatio_adds o _ _ _ _ _ h2

theorem value_adds (o : ClassOrder κ) {fnc : ClassFn κ}
    (hf : ∀ site m c rp out m', fnc site m c rp = .ok (out, m') → HasLabel m' c) (site : List ℕ)
    (c : κ) (v : Average) (m : CM κ) {x : PyNum} {m' : CM κ}
    (h : valueMicroMacro o fnc site (some c) v m = .ok (x, m')) : HasLabel m' c := by
  unfold valueMicroMacro at h
  simp only at h
  cases h1 : fnc (0 :: site) m.classes.2 c false with
  | error e => rw [h1] at h; cases h
  | ok r1 =>
    obtain ⟨y, m1⟩ := r1
    rw [h1] at h
    cases y with
    | parts _ _ => cases h
    | value v => cases h; exact hf _ _ _ _ _ _ h1

theorem query_adds (o : ClassOrder κ) (site : List ℕ) (q : Query κ) (m : CM κ) {x : PyNum}
    {m' : CM κ} (h : q.run o site m = .ok (x, m')) {l : κ} (hl : q.about = some l) :
    HasLabel m' l := by
  cases q with
  | precision c v =>
    cases hl
    exact value_adds o (fun site m c rp out m' h => classRatio_adds o _ _ m c rp h) site l v m h
  | recall c v =>
    cases hl
    exact value_adds o (fun site m c rp out m' h => classRatio_adds o _ _ m c rp h) site l v m h
  | fmeasure c b v =>
    cases hl
    exact value_adds o (fun site m c rp out m' h => fmeasureClass_adds o b _ m c rp h) site l v m h

theorem step_labels (o : ClassOrder κ) (site : List ℕ) (op : MOp κ) (m : CM κ) (hs : Sound m)
    {m' : CM κ} (h : op.run o site m = .ok m') (l : κ) :
    HasLabel m' l ↔ HasLabel m l ∨ op.names l := by
  cases op with
  | look p => cases h; exact hasLabel_touch m p l
  | read p a => cases h; exact hasLabel_read m p a l
  | write p a v => cases h; exact hasLabel_write m p a v l
  | incr p a v =>
    obtain ⟨new, h1, rfl⟩ := incr_inv h
    rw [hasLabel_write, hasLabel_read]
    simp only [MOp.names]
    tauto
  | classes =>
    cases h
    simp only [MOp.names, or_false]
    exact ⟨fun h => ((same_classes m (fun _ => False)).only l h).elim id (fun h => h.elim),
      (same_classes m (fun _ => False)).more l⟩
  | ask q =>
    simp only [MOp.run] at h
    cases h1 : q.run o site m with
    | error e => rw [h1] at h; cases h
    | ok r =>
      obtain ⟨x, m1⟩ := r
      rw [h1] at h
      cases h
      have hk := query_keeps o site q m hs h1
      constructor
      · exact hk.only l
      · rintro (h | h)
        · exact hk.more l h
        · exact query_adds o site q m h1 h

theorem history_labels (o : ClassOrder κ) (k : ℕ) (ops : List (MOp κ)) (m m' : CM κ) (hs : Sound m)
    (h : history o k m ops = .ok m') (l : κ) :
    HasLabel m' l ↔ HasLabel m l ∨ ∃ op ∈ ops, op.names l := by
  induction ops generalizing k m with
  | nil => cases h; simp
  | cons op ops ih =>
    rw [history] at h
    cases h1 : op.run o [k] m with
    | error e => rw [h1] at h; cases h
    | ok m1 =>
      rw [h1] at h
      rw [ih _ _ (step_ok o [k] op m hs h1).1 h, step_labels o [k] op m hs h1]
      simp only [List.mem_cons, exists_eq_or_imp, or_assoc]

theorem step_fresh (o : ClassOrder κ) (site : List ℕ) (op : MOp κ) (m : CM κ) (hs : Sound m)
    (hf : Fresh m) (hop : ∀ p, op ≠ .look p) {m' : CM κ} (h : op.run o site m = .ok m') :
    Fresh m' := by
  cases op with
  | look p => exact absurd rfl (hop p)
  | read p a => cases h; exact (same_read m p a).fresh hf
  | write p a v => cases h; exact fun h => absurd h (by simp [write_dirty])
  | incr p a v =>
    obtain ⟨new, h1, rfl⟩ := incr_inv h
    exact fun h => absurd h (by simp [write_dirty])
  | classes => cases h; exact (same_classes m (fun _ => False)).fresh hf
  | ask q =>
    simp only [MOp.run] at h
    cases h1 : q.run o site m with
    | error e => rw [h1] at h; cases h
    | ok r =>
      obtain ⟨x, m1⟩ := r
      rw [h1] at h
      cases h
      exact (query_keeps o site q m hs h1).fresh hf

theorem history_fresh (o : ClassOrder κ) (k : ℕ) (ops : List (MOp κ)) (m m' : CM κ) (hs : Sound m)
    (hf : Fresh m) (hops : ∀ p, .look p ∉ ops) (h : history o k m ops = .ok m') : Fresh m' := by
  induction ops generalizing k m with
  | nil => cases h; exact hf
  | cons op ops ih =>
    rw [history] at h
    cases h1 : op.run o [k] m with
    | error e => rw [h1] at h; cases h
    | ok m1 =>
      rw [h1] at h
      exact ih _ _ (step_ok o [k] op m hs h1).1
        (step_fresh o [k] op m hs hf (fun p hp => hops p (by simp [hp])) h1)
        (fun p hp => hops p (by simp [hp])) h

theorem asks_same (o : ClassOrder κ) (k : ℕ) (qs : List (Query κ)) (m m' : CM κ) (hs : Sound m)
    (h : history o k m (qs.map .ask) = .ok m') :
    Same m m' (fun l => ∃ q ∈ qs, q.about = some l) := by
  induction qs generalizing k m with
  | nil => cases h; exact Same.refl _ _
  | cons q qs ih =>
    rw [List.map_cons, history] at h
    cases h1 : (MOp.ask q).run o [k] m with
    | error e => rw [h1] at h; cases h
    | ok m1 =>
      rw [h1] at h
      simp only at h
      simp only [MOp.run] at h1
      cases h2 : q.run o [k] m with
      | error e => rw [h2] at h1; cases h1
      | ok r =>
        obtain ⟨x, m2⟩ := r
        rw [h2] at h1
        cases h1
        have hk := query_keeps o [k] q m hs h2
        refine (hk.trans (ih _ _ (hk.sound hs) h)).mono (fun l hl => .inr ?_)
        rcases hl with hl | ⟨q', hq, hl⟩
        · exact ⟨q, by simp, hl⟩
        · exact ⟨q', by simp [hq], hl⟩

/-- The answers to queries, from the cells. -/
theorem answer_class (o : ClassOrder κ) (site : List ℕ) (m : CM κ) (hs : Sound m) (hn : NoFloats m)
    (c : κ) (v : Average) (beta : ℚ) :
    answer (precision o site (some c) v m) = precisionOf m c ∧
    answer (recall o site (some c) v m) = recallOf m c ∧
    answer (fmeasure o site (some c) beta v m) = fOf beta m c :=
  ⟨(value_class (precision_spec o) site c v m hs hn).1,
    (value_class (recall_spec o) site c v m hs hn).1,
    (value_class (fmeasure_spec o beta) site c v m hs hn).1⟩

theorem answer_congr (o o' : ClassOrder κ) (site site' : List ℕ) (q : Query κ) {m m' : CM κ}
    (hs : Sound m) (hs' : Sound m') (hn : NoFloats m) (hc : ∀ p a, cell m' p a = cell m p a)
    (hcl : q.about = none → q.version = .macro → m'.classes.1 = m.classes.1) :
    answer (q.run o site m) = answer (q.run o' site' m') := by
  have hn' : NoFloats m' := fun p a => by rw [hc]; exact hn p a
  have key : ∀ {fnc fnc' : ClassFn κ} {val parts}, ClassSpec fnc val parts →
      ClassSpec fnc' val parts → ∀ (c : Option κ) v,
      (c = none → v = .macro → m'.classes.1 = m.classes.1) →
      answer (valueMicroMacro o fnc site c v m) = answer (valueMicroMacro o' fnc' site' c v m') := by
    intro fnc fnc' val parts hf hf' c v hcl
    have e1 : ∀ c, val m' c = val m c := fun c => (hf.cong m m' c hc).1
    have e2 : ∀ c, parts m' c = parts m c := fun c => (hf.cong m m' c hc).2
    cases c with
    | some c => rw [(value_class hf site c v m hs hn).1, (value_class hf' site' c v m' hs' hn').1, e1]
    | none =>
      match v with
      | .micro =>
        rw [(value_micro hf site m hs hn).1, (value_micro hf' site' m' hs' hn').1]
        congr 1; funext c; exact (e2 c).symm
      | .macro =>
        rw [(value_macro hf site m hs hn).1, (value_macro hf' site' m' hs' hn').1, hcl rfl rfl]
        congr 1; funext c; exact (e1 c).symm
      | .other => rfl
  cases q with
  | precision c v => exact key (precision_spec o) (precision_spec o') c v hcl
  | recall c v => exact key (recall_spec o) (recall_spec o') c v hcl
  | fmeasure c b v => exact key (fmeasure_spec o b) (fmeasure_spec o' b) c v hcl

/-- Classes without cells count as 0. -/
theorem values_off {m : CM κ} {c : κ} (h : ¬ InUse m c) (beta : ℚ) :
    precisionOf m c = some 0 ∧ recallOf m c = some 0 ∧ fOf beta m c = some 0 := by
  have h1 : precisionOf m c = some 0 := by
    rw [precisionOf, (cell_off h c).1, ratioOf, if_pos (by decide)]
  have h2 : recallOf m c = some 0 := by
    rw [recallOf, (cell_off h c).1, ratioOf, if_pos (by decide)]
  exact ⟨h1, h2, by rw [fOf, h1, h2]; simp [fOfRatios]⟩

/-- More classes of value 0 lower the average in proportion. -/
theorem macroOf_more (S T : Finset κ) (val : κ → Option ℚ) (hd : _root_.Disjoint S T)
    (h0 : ∀ c ∈ T, val c = some 0) :
    macroOf (S ∪ T) val = (macroOf S val).map (fun x : ℚ => x * S.card / (S.card + T.card)) := by
  have hn : (∃ c ∈ S ∪ T, val c = none) ↔ ∃ c ∈ S, val c = none := by
    constructor
    · rintro ⟨c, hc, hv⟩
      rcases Finset.mem_union.1 hc with hc | hc
      · exact ⟨c, hc, hv⟩
      · rw [h0 c hc] at hv; cases hv
    · rintro ⟨c, hc, hv⟩; exact ⟨c, Finset.mem_union_left _ hc, hv⟩
  unfold macroOf
  by_cases h : ∃ c ∈ S, val c = none
  · rw [if_pos h, if_pos (hn.2 h)]; rfl
  · rw [if_neg h, if_neg (fun h' => h (hn.1 h')), Option.map_some, Finset.sum_union hd,
      Finset.card_union_of_disjoint hd]
    have : ∑ c ∈ T, (val c).getD 0 = 0 :=
      Finset.sum_eq_zero (fun c hc => by rw [h0 c hc]; rfl)
    rw [this, add_zero]
    push_cast
    by_cases hS : (S.card : ℚ) = 0
    · have : S = ∅ := by
        rw [← Finset.card_eq_zero]; exact_mod_cast hS
      subst this
      simp
    · rw [div_mul_cancel₀ _ hS]

theorem answer_macro (o o' : ClassOrder κ) (site site' : List ℕ) (q : Query κ) {m m' : CM κ}
    (hs : Sound m) (hs' : Sound m') (hn : NoFloats m) (hc : ∀ p a, cell m' p a = cell m p a)
    (hq : q.about = none) (hv : q.version = .macro) (S T : Finset κ)
    (h1 : m.classes.1 = S) (h2 : m'.classes.1 = S ∪ T) (hd : _root_.Disjoint S T)
    (h0 : ∀ c ∈ T, ¬ InUse m c) :
    answer (q.run o' site' m') =
      (answer (q.run o site m)).map (fun x : ℚ => x * S.card / (S.card + T.card)) := by
  have hn' : NoFloats m' := fun p a => by rw [hc]; exact hn p a
  have key : ∀ {fnc fnc' : ClassFn κ} {val parts}, ClassSpec fnc val parts →
      ClassSpec fnc' val parts → (∀ c ∈ T, val m c = some 0) →
      answer (valueMicroMacro o' fnc' site' none .macro m') =
      (answer (valueMicroMacro o fnc site none .macro m)).map
        (fun x : ℚ => x * S.card / (S.card + T.card)) := by
    intro fnc fnc' val parts hf hf' hz
    have e1 : val m' = val m := funext (fun c => (hf.cong m m' c hc).1)
    rw [(value_macro hf site m hs hn).1, (value_macro hf' site' m' hs' hn').1, h1, h2, e1]
    exact macroOf_more S T (val m) hd hz
  cases q with
  | precision c v =>
    cases hq; cases hv
    exact key (precision_spec o) (precision_spec o') (fun c hc => (values_off (h0 c hc) 1).1)
  | recall c v =>
    cases hq; cases hv
    exact key (recall_spec o) (recall_spec o') (fun c hc => (values_off (h0 c hc) 1).2.1)
  | fmeasure c b v =>
    cases hq; cases hv
    exact key (fmeasure_spec o b) (fmeasure_spec o' b) (fun c hc => (values_off (h0 c hc) b).2.2)

/-- A property of 0 and of all stored values is one of all cells. -/
theorem cells_of_rows (P : PyNum → Prop) (h0 : P (.int 0)) (m : CM κ)
    (h : ∀ r ∈ m.rows, ∀ c ∈ r.2, P c.2) (p a : κ) : P (cell m p a) := by
  rw [cell_eq]
  unfold CM.row
  cases hr : dictGet m.rows p with
  | none => exact h0
  | some r =>
    simp only [Option.getD_some]
    cases hc : dictGet r a with
    | none => exact h0
    | some v => exact h _ (dictGet_mem hr) _ (dictGet_mem hc)

end SegEval
