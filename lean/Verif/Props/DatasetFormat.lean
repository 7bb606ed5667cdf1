import Verif.Props.Agreement
import Verif.Props.Pipeline
import Verif.Spec.DatasetFormat

/-!
# C79: results over whole datasets do not depend on the format the data are in
-/

namespace SegEval.Props

open SegEval Spec

variable {fmt fmt' : BoundaryFormat}

/-- Both calls return the same value, or neither returns. -/
def OkEq {α : Type _} (x y : Py α) : Prop := ∀ v, x = .ok v ↔ y = .ok v

theorem OkEq.of_eq {α : Type _} {x y : Py α} (h : x = y) : OkEq x y := fun _ => by rw [h]

theorem OkEq.elim {α : Type _} {x y : Py α} (h : OkEq x y) :
    x = y ∨ ∃ e e', x = .error e ∧ y = .error e' := by
  cases x with
  | ok v => exact Or.inl ((h v).1 rfl).symm
  | error e =>
    cases y with
    | ok v => have := (h v).2 rfl; cases this
    | error e' => exact Or.inr ⟨e, e', rfl, rfl⟩

theorem OkEq.errors {α : Type _} {e e' : PyErr} : OkEq (α := α) (.error e) (.error e') := fun _ =>
  ⟨fun h => (by cases h), fun h => (by cases h)⟩

theorem forLoop_okEq {α β σ : Type _} {R : α → β → Prop} {l : List α} {l' : List β}
    (h : List.Forall₂ R l l') {f : σ → α → Py σ} {g : σ → β → Py σ}
    (hf : ∀ s x y, R x y → OkEq (f s x) (g s y)) (s : σ) : OkEq (forLoop l s f) (forLoop l' s g) := by
  induction h generalizing s with
  | nil => exact fun _ => Iff.rfl
  | @cons x y xs ys hxy _ ih =>
    intro w
    unfold forLoop
    have hxy' := hf s x y hxy
    cases hx : f s x with
    | ok v =>
      rw [(hxy' v).1 hx]
      exact ih v w
    | error e =>
      cases hy : g s y with
      | ok v => have := (hxy' v).2 hy; rw [hx] at this; cases this
      | error e' => exact ⟨fun h => (by cases h), fun h => (by cases h)⟩

theorem dictGet_forall₂ {α β : Type _} {R : α → β → Prop} {l : List (Name × α)}
    {l' : List (Name × β)} (h : List.Forall₂ (fun c c' => c.1 = c'.1 ∧ R c.2 c'.2) l l') (k : Name) :
    (dictGet l k = none ∧ dictGet l' k = none) ∨
      ∃ x y, dictGet l k = some x ∧ dictGet l' k = some y ∧ R x y := by
  induction h with
  | nil => exact Or.inl ⟨rfl, rfl⟩
  | @cons x y xs ys hxy _ ih =>
    obtain ⟨k1, v1⟩ := x
    obtain ⟨k2, v2⟩ := y
    obtain ⟨rfl, hv⟩ := hxy
    simp only at hv
    unfold dictGet
    by_cases hk : k1 = k
    · simp only [if_pos hk]; exact Or.inr ⟨v1, v2, rfl, rfl, hv⟩
    · simp only [if_neg hk]; exact ih

theorem falsy_denotes {a : Seg} {s : BString} (h : Denotes fmt a s) (hf : a.truthy = false) :
    s = [] := by
  have h1 := toBString_denotes h
  cases a with
  | ints t l =>
    obtain rfl : l = [] := by simpa [Seg.truthy] using hf
    cases fmt with
    | mass | position =>
      have h2 : ∀ r : Py BString, r = .ok s → r = .ok [] → s = [] := by
        intro r h h'; rw [h] at h'; exact Except.ok.inj h'
      exact h2 _ h1 (by cases t <;> decide +kernel)
    | sets | nltk | other => cases h1
  | sets l =>
    obtain rfl : l = [] := by simpa [Seg.truthy] using hf
    cases fmt with
    | sets => exact (Except.ok.inj h1).symm
    | mass | position | nltk | other => cases h1
  | str l =>
    obtain rfl : l = [] := by simpa [Seg.truthy] using hf
    cases fmt with
    | nltk =>
      have h2 : ∀ r : Py BString, r = .ok s → r = .ok [] → s = [] := by
        intro r h h'; rw [h] at h'; exact Except.ok.inj h'
      exact h2 _ h1 (by decide +kernel)
    | mass | position | sets | other => cases h1

/-- One direction of `compareB_okEq`. -/
theorem compareB_transfer {rt : Runtime} {nT : ℤ} {w : Weights} {a b a' b' : Seg}
    (ha : SameBoundaries fmt fmt' a a') (hb : SameBoundaries fmt fmt' b b') {v : PyNum × PyNum}
    (h : compareB rt nT w fmt a b = .ok v) : compareB rt nT w fmt' a' b' = .ok v := by
  obtain ⟨sa, ha, ha'⟩ := ha
  obtain ⟨sb, hb, hb'⟩ := hb
  have he := (C05_similarity_formats rt ⟨fmt, false, true, nT, w⟩ fmt fmt' a b a' b' sa sb ha hb
    ha' hb').2.1
  simp only at he
  unfold compareB at h ⊢
  split at h
  · have hne : sa ≠ [] ∧ sb ≠ [] := by
      cases hs : boundarySimilarity rt ⟨fmt, false, true, nT, w⟩ a b with
      | error e => rw [hs] at h; cases h
      | ok r =>
        obtain ⟨st, hst⟩ := boundarySim_stats hs
        simp only at hst
        rw [boundaryStatistics_denotes ha hb] at hst
        have hl := (statistics_ok hst).1
        have ht := statistics_types_ne hst
        have : sa ≠ [] := by
          rintro rfl
          have : sb = [] := List.length_eq_zero_iff.1 hl.symm
          subst this
          exact ht (by decide +kernel)
        refine ⟨this, fun h0 => this (List.length_eq_zero_iff.1 ?_)⟩
        rw [hl, h0]; rfl
    have ta : a'.truthy = true := by
      by_contra hc
      exact hne.1 (falsy_denotes ha' (by simpa using hc))
    have tb : b'.truthy = true := by
      by_contra hc
      exact hne.2 (falsy_denotes hb' (by simpa using hc))
    rw [ta, tb, ← he]
    exact h
  · cases h

theorem SameBoundaries.symm {a a' : Seg} (h : SameBoundaries fmt fmt' a a') :
    SameBoundaries fmt' fmt a' a := h.imp fun _ h => h.symm

theorem compareB_okEq {rt : Runtime} {nT : ℤ} {w : Weights} {a b a' b' : Seg}
    (ha : SameBoundaries fmt fmt' a a') (hb : SameBoundaries fmt fmt' b b') :
    OkEq (compareB rt nT w fmt a b) (compareB rt nT w fmt' a' b') := fun _ =>
  ⟨compareB_transfer ha hb, compareB_transfer (SameBoundaries.symm ha) (SameBoundaries.symm hb)⟩

theorem agreeStep_okEq {rt : Runtime} {nT : ℤ} {w : Weights} (m n : Name) (acc : AgrParts)
    {it it' : Name × Codings} (h : List.Forall₂
      (fun c c' => c.1 = c'.1 ∧ SameBoundaries fmt fmt' c.2 c'.2) it.2 it'.2) :
    OkEq (agreeStep (compareB rt nT w) fmt m n acc it)
      (agreeStep (compareB rt nT w) fmt' m n acc it') := by
  unfold agreeStep
  rcases dictGet_forall₂ h m with ⟨h1, h2⟩ | ⟨a, a', h1, h2, ha⟩
  · rw [h1, h2]; exact fun _ => Iff.rfl
  rcases dictGet_forall₂ h n with ⟨h3, h4⟩ | ⟨b, b', h3, h4, hb⟩
  · rw [h1, h2, h3, h4]; exact fun _ => ⟨fun h => (by cases h), fun h => (by cases h)⟩
  rw [h1, h2]
  simp only [h3, h4]
  obtain ⟨sa, ka, ka'⟩ := id ha
  obtain ⟨sb, kb, kb'⟩ := id hb
  have e1 : potentialBoundaries fmt a b = potentialBoundaries fmt' a' b' := by
    rw [potentialBoundaries, potentialBoundaries, toBStrings_denotes ka kb, toBStrings_denotes ka' kb']
  have e2 : boundariesOf fmt a = boundariesOf fmt' a' := by
    rw [boundariesOf, boundariesOf, toBString_denotes ka, toBString_denotes ka']
  have e3 : boundariesOf fmt b = boundariesOf fmt' b' := by
    rw [boundariesOf, boundariesOf, toBString_denotes kb, toBString_denotes kb']
  rw [e1, e2, e3]
  rcases OkEq.elim (compareB_okEq (rt := rt) (nT := nT) (w := w) ha hb) with h5 | ⟨e, e', h5, h6⟩
  · rw [h5]; exact OkEq.of_eq rfl
  · rw [h5, h6]; exact OkEq.errors

theorem parts_okEq {rt : Runtime} {nT : ℤ} {w : Weights} (coders : List Name) {i i' : Items}
    (h : Recoded fmt fmt' i i') :
    OkEq (agreementParts (compareB rt nT w) fmt coders i)
      (agreementParts (compareB rt nT w) fmt' coders i') := by
  unfold agreementParts
  refine forLoop_okEq (R := Eq) (List.forall₂_eq_eq_eq ▸ rfl) ?_ _
  rintro s p _ rfl
  exact forLoop_okEq h (fun s x y hxy => agreeStep_okEq p.1 p.2 s hxy.2) _

theorem forall₂_keys {α β : Type _} {R : α → β → Prop} {l : List (Name × α)}
    {l' : List (Name × β)} (h : List.Forall₂ (fun c c' => c.1 = c'.1 ∧ R c.2 c'.2) l l') :
    l.map Prod.fst = l'.map Prod.fst := by
  induction h with
  | nil => rfl
  | cons h _ ih => rw [List.map_cons, List.map_cons, ih, h.1]

theorem recoded_keys {i i' : Items} (h : Recoded fmt fmt' i i') :
    i.map (fun e => (e.1, e.2.map Prod.fst)) = i'.map (fun e => (e.1, e.2.map Prod.fst)) := by
  induction h with
  | nil => rfl
  | @cons x y xs ys hxy _ ih =>
    rw [List.map_cons, List.map_cons, ih, hxy.1]
    congr 2
    exact forall₂_keys hxy.2

theorem recoded_lengths {i i' : Items} (h : Recoded fmt fmt' i i') :
    i.map (fun e => e.2.length) = i'.map (fun e => e.2.length) := by
  have := congrArg (List.map (fun e : Name × List Name => e.2.length)) (recoded_keys h)
  simpa [List.map_map, Function.comp_def] using this

theorem recoded_coders {i i' : Items} (h : Recoded fmt fmt' i i') (c : Name) :
    (∃ it ∈ i, ∃ e ∈ it.2, e.1 = c) ↔ ∃ it ∈ i', ∃ e ∈ it.2, e.1 = c := by
  have key : ∀ j : Items, (∃ it ∈ j, ∃ e ∈ it.2, e.1 = c) ↔
      ∃ p ∈ j.map (fun e => (e.1, e.2.map Prod.fst)), c ∈ p.2 := by
    intro j
    simp [List.mem_map]
  rw [key, key, recoded_keys h]

theorem recoded_equalCodings {i i' : Items} (h : Recoded fmt fmt' i i') :
    equalCodings i = equalCodings i' := by
  unfold equalCodings
  rw [recoded_lengths h]

theorem recoded_two {i i' : Items} (h : Recoded fmt fmt' i i') :
    (i.filter (fun it => decide (it.2.length < 2))).length =
      (i'.filter (fun it => decide (it.2.length < 2))).length := by
  have key : ∀ j : Items, (j.filter (fun it => decide (it.2.length < 2))).length =
      ((j.map (fun e => e.2.length)).filter (fun n => decide (n < 2))).length := by
    intro j
    rw [List.filter_map, List.length_map]; rfl
  rw [key, key, recoded_lengths h]

section
variable {rt : Runtime} {nT : ℤ} {w : Weights} {kw kw' : BoundaryFormat} {o : ClassOrder Name}
  {d d' : AgrData}

theorem data_parts (hf : ReadAs kw d fmt) (hf' : ReadAs kw' d' fmt') (hc : getCoders d = getCoders d')
    (h : Recoded fmt fmt' d.items d'.items) :
    OkEq (agreementParts (compareB rt nT w) (agrFormat kw d) (o.order [] (getCoders d)) d.items)
      (agreementParts (compareB rt nT w) (agrFormat kw' d') (o.order [] (getCoders d')) d'.items) := by
  have e : agrFormat kw d = fmt := by cases hf <;> rfl
  have e' : agrFormat kw' d' = fmt' := by cases hf' <;> rfl
  rw [e, e', hc]
  exact parts_okEq _ h

theorem data_coders (hm : CodersMatch d) (hm' : CodersMatch d')
    (h : Recoded fmt fmt' d.items d'.items) : getCoders d = getCoders d' := by
  ext c
  rw [hm, hm']
  constructor
  · rintro ⟨label, s, cs, h1, h2⟩
    rcases dictGet_forall₂ h label with ⟨k1, _⟩ | ⟨x, y, k1, k2, k3⟩
    · rw [h1] at k1; cases k1
    · rw [h1] at k1; cases k1
      rcases dictGet_forall₂ k3 c with ⟨k4, _⟩ | ⟨x, z, k4, k5, _⟩
      · rw [h2] at k4; cases k4
      · exact ⟨label, z, y, k2, k5⟩
  · rintro ⟨label, s, cs, h1, h2⟩
    rcases dictGet_forall₂ h label with ⟨_, k1⟩ | ⟨x, y, k2, k1, k3⟩
    · rw [h1] at k1; cases k1
    · rw [h1] at k1; cases k1
      rcases dictGet_forall₂ k3 c with ⟨_, k4⟩ | ⟨z, _, k5, k4, _⟩
      · rw [h2] at k4; cases k4
      · exact ⟨label, z, x, k2, k5⟩

/-- C79: agreement is the same whatever format the data are in, and whether they are in a `Dataset` or
a plain dict. -/
theorem C79_agreement (hf : ReadAs kw d fmt) (hf' : ReadAs kw' d' fmt') (hm : CodersMatch d)
    (hm' : CodersMatch d') (h : Recoded fmt fmt' d.items d'.items) (rp : Bool) :
    (∀ x, actualAgreement o (compareB rt nT w) kw d = .ok x ↔
      actualAgreement o (compareB rt nT w) kw' d' = .ok x) ∧
    (∀ x, fleissPi o (compareB rt nT w) kw rp d = .ok x ↔
      fleissPi o (compareB rt nT w) kw' rp d' = .ok x) ∧
    (∀ x, fleissKappa o (compareB rt nT w) kw rp d = .ok x ↔
      fleissKappa o (compareB rt nT w) kw' rp d' = .ok x) ∧
    ∀ x, artsteinPoesioBias o (compareB rt nT w) kw rp d = .ok x ↔
      artsteinPoesioBias o (compareB rt nT w) kw' rp d' = .ok x := by
  have hp := data_parts (rt := rt) (nT := nT) (w := w) (o := o) hf hf' (data_coders hm hm' h) h
  have pi : ∀ rp, OkEq (fleissPi o (compareB rt nT w) kw rp d)
      (fleissPi o (compareB rt nT w) kw' rp d') := by
    intro rp
    unfold fleissPi
    rw [recoded_equalCodings h]
    split
    · exact fun _ => Iff.rfl
    · rcases OkEq.elim hp with h5 | ⟨e, e', h5, h6⟩
      · rw [h5]; exact OkEq.of_eq rfl
      · rw [h5, h6]; exact OkEq.errors
  have kappa : ∀ rp, OkEq (fleissKappa o (compareB rt nT w) kw rp d)
      (fleissKappa o (compareB rt nT w) kw' rp d') := by
    intro rp
    unfold fleissKappa
    rw [recoded_equalCodings h, recoded_two h]
    split
    · exact fun _ => Iff.rfl
    · split
      · exact fun _ => Iff.rfl
      · rcases OkEq.elim hp with h5 | ⟨e, e', h5, h6⟩
        · rw [h5]; exact OkEq.of_eq rfl
        · rw [h5, h6]; exact OkEq.errors
  have actual : OkEq (actualAgreement o (compareB rt nT w) kw d)
      (actualAgreement o (compareB rt nT w) kw' d') := by
    unfold actualAgreement
    rcases OkEq.elim hp with h5 | ⟨e, e', h5, h6⟩
    · rw [h5]; exact OkEq.of_eq rfl
    · rw [h5, h6]; exact OkEq.errors
  have bias : OkEq (artsteinPoesioBias o (compareB rt nT w) kw rp d)
      (artsteinPoesioBias o (compareB rt nT w) kw' rp d') := by
    unfold artsteinPoesioBias
    rcases OkEq.elim (pi true) with h5 | ⟨e, e', h5, h6⟩
    · rw [h5]
      cases fleissPi o (compareB rt nT w) kw' true d' with
      | error e => exact OkEq.errors
      | ok v =>
        cases v with
        | value v => exact OkEq.errors
        | parts _ piE =>
          simp only
          rcases OkEq.elim (kappa true) with h5 | ⟨e, e', h5, h6⟩
          · rw [h5]; exact OkEq.of_eq rfl
          · rw [h5, h6]; exact OkEq.errors
    · rw [h5, h6]; exact OkEq.errors
  exact ⟨actual, pi rp, kappa rp, bias⟩

end

/-! ## Pairwise values -/

theorem perLabel_recoded {T : Type _} {R : Seg → Seg → Prop} {f f' : Seg → Seg → Py T}
    (hf : ∀ a b a' b', R a a' → R b b' →
      f a b = f' a' b') (permuted : Bool) {i i' : Items} (h : RecodedBy R i i')
    {j j' : Option Items} (hj : Option.Rel (RecodedBy R) j j') (acc : List (Name × T))
    (label : Name) :
    perLabel f permuted i j acc label = perLabel f' permuted i' j' acc label := by
  have pairs : ∀ (two : Bool) (cm cn cm' cn' : Codings),
      List.Forall₂ (fun c c' => c.1 = c'.1 ∧ R c.2 c'.2) cm cm' →
      List.Forall₂ (fun c c' => c.1 = c'.1 ∧ R c.2 c'.2) cn cn' →
      ∀ ps, labelPairs f label permuted two cm cn ps = labelPairs f' label permuted two cm' cn' ps := by
    intro two cm cn cm' cn' h1 h2 ps
    unfold labelPairs
    refine forLoop_congr _ _ (fun s p _ => ?_)
    unfold pairStep
    rcases dictGet_forall₂ h1 p.1 with ⟨k1, k2⟩ | ⟨x, x', k1, k2, kx⟩
    · rw [k1, k2]
    · rcases dictGet_forall₂ h2 p.2 with ⟨k3, k4⟩ | ⟨y, y', k3, k4, ky⟩
      · rw [k1, k2, k3, k4]
      · rw [k1, k2, k3, k4]
        simp only [hf x y x' y' kx ky, hf y x y' x' ky kx]
  unfold perLabel
  cases hj with
  | none =>
    rcases dictGet_forall₂ h label with ⟨k1, k2⟩ | ⟨x, x', k1, k2, kx⟩
    · rw [k1, k2]
    · rw [k1, k2]
      simp only [pairs false x x x' x' kx kx, dictKeys, forall₂_keys kx]
  | some hj =>
    rename_i j j'
    simp only
    rcases dictGet_forall₂ h label with ⟨k1, k2⟩ | ⟨x, x', k1, k2, kx⟩
    · rw [k1, k2]
    · rcases dictGet_forall₂ hj label with ⟨k3, k4⟩ | ⟨y, y', k3, k4, ky⟩
      · rw [k1, k2, k3, k4]
      · rw [k1, k2, k3, k4]
        simp only [pairs true x y x' y' kx ky, dictKeys, forall₂_keys kx, forall₂_keys ky]

theorem pairwise_recoded {T : Type _} {R : Seg → Seg → Prop} {f f' : Seg → Seg → Py T} (o : ClassOrder Name)
    (hf : ∀ a b a' b', R a a' → R b b' →
      f a b = f' a' b') (permuted : Bool) {i i' : Items} (h : RecodedBy R i i')
    {j j' : Option Items} (hj : Option.Rel (RecodedBy R) j j') :
    computePairwiseValues o f permuted i j = computePairwiseValues o f' permuted i' j' := by
  unfold computePairwiseValues
  have hk : ∀ {i i' : Items}, RecodedBy R i i' → dictKeys i = dictKeys i' := fun h => by
    rw [dictKeys, dictKeys]; exact forall₂_keys h
  have hl : labelSet i j = labelSet i' j' := by
    unfold labelSet
    cases hj with
    | none => rw [hk h]
    | some hj => simp only [hk h, hk hj]
  rw [hl]
  exact forLoop_congr _ _ (fun s l _ => perLabel_recoded hf permuted h hj s l)

theorem call_recoded {T : Type _} (o : ClassOrder Name)
    (R : BoundaryFormat → BoundaryFormat → Seg → Seg → Prop) (f : BoundaryFormat → Seg → Seg → Py T)
    (hf : ∀ fmt fmt' a b a' b', R fmt fmt' a a' → R fmt fmt' b b' →
      f fmt a b = f fmt' a' b') (k k' : BoundaryFormat) (permuted : Bool) {c c' : CallArgs}
    {q q' : Request} (hc : Asks c q) (hc' : Asks c' q') (h : SameRequestBy R q q') :
    fncMetric o f k permuted c = fncMetric o f k' permuted c' := by
  rw [call_asks o f k permuted c q hc, call_asks o f k' permuted c' q' hc']
  cases h with
  | dataset d d' h =>
    simp only [reply]
    rw [pairwise_recoded o (hf _ _) permuted h .none]
  | datasets d d' g g' h h' =>
    have e : g.boundaryFormat = d.boundaryFormat := hc.2.2.1.symm
    have e' : g'.boundaryFormat = d'.boundaryFormat := hc'.2.2.1.symm
    rw [e, e'] at h'
    simp only [reply]
    rw [pairwise_recoded o (hf _ _) permuted h (.some h')]

/-- C79: boundary similarity, segmentation similarity and the boundary statistics of every pair of
codings of a dataset, or of two datasets, are the same whatever format the datasets are in, and
whatever the keyword `boundary_format` says. -/
theorem C79_pairwise (o : ClassOrder Name) (rt : Runtime) (kw : SimKw) (k k' : BoundaryFormat)
    (permuted : Bool) (c c' : CallArgs) (q q' : Request) (hc : Asks c q) (hc' : Asks c' q')
    (h : SameRequest q q') :
    fncMetric o (fun f => boundarySimilarity rt { kw with boundaryFormat := f }) k permuted c =
      fncMetric o (fun f => boundarySimilarity rt { kw with boundaryFormat := f }) k' permuted c' ∧
    fncMetric o (fun f => segmentationSimilarity rt { kw with boundaryFormat := f }) k permuted c =
      fncMetric o (fun f => segmentationSimilarity rt { kw with boundaryFormat := f }) k' permuted
        c' ∧
    fncMetric o (fun f => boundaryStatistics rt f kw.nT kw.weight) k permuted c =
      fncMetric o (fun f => boundaryStatistics rt f kw.nT kw.weight) k' permuted c' := by
  refine ⟨call_recoded o _ _ ?_ k k' permuted hc hc' h, call_recoded o _ _ ?_ k k' permuted hc hc' h,
    call_recoded o _ _ ?_ k k' permuted hc hc' h⟩
  · rintro fmt fmt' a b a' b' ⟨sa, ha, ha'⟩ ⟨sb, hb, hb'⟩
    exact (C05_similarity_formats rt kw fmt fmt' a b a' b' sa sb ha hb ha' hb').2.1
  · rintro fmt fmt' a b a' b' ⟨sa, ha, ha'⟩ ⟨sb, hb, hb'⟩
    exact (C05_similarity_formats rt kw fmt fmt' a b a' b' sa sb ha hb ha' hb').2.2
  · rintro fmt fmt' a b a' b' ⟨sa, ha, ha'⟩ ⟨sb, hb, hb'⟩
    exact (C05_similarity_formats rt kw fmt fmt' a b a' b' sa sb ha hb ha' hb').1

/-! ## Examples -/

/-- Two items by two coders, as masses. -/
def exMasses : Items :=
  [("i".toList, [("a".toList, massSeg [2, 3, 1]), ("b".toList, massSeg [2, 2, 2])]),
   ("j".toList, [("a".toList, massSeg [1, 2]), ("b".toList, massSeg [2, 1])])]

/-- The same as boundary sets. -/
def exSets : Items :=
  [("i".toList, [("a".toList, .sets [∅, {1}, ∅, ∅, {1}]), ("b".toList, .sets [∅, {1}, ∅, {1}, ∅])]),
   ("j".toList, [("a".toList, .sets [{1}, ∅]), ("b".toList, .sets [∅, {1}])])]

theorem exRecoded : Recoded .mass .sets exMasses exSets := by
  have key : ∀ m s, (∀ x ∈ m, 0 < x) → m ≠ [] → boundaryStringFromMasses m = .ok s →
      SameBoundaries .mass .sets (massSeg m) (.sets s) := fun m s h hn e =>
    ⟨s, massSeg_denotes m hn h s e, rfl⟩
  refine .cons ⟨rfl, .cons ⟨rfl, key _ _ ?_ ?_ ?_⟩ (.cons ⟨rfl, key _ _ ?_ ?_ ?_⟩ .nil)⟩
    (.cons ⟨rfl, .cons ⟨rfl, key _ _ ?_ ?_ ?_⟩ (.cons ⟨rfl, key _ _ ?_ ?_ ?_⟩ .nil)⟩ .nil)
  all_goals decide +kernel

/-- The keyword says positions, and is not used. -/
example : fncMetric ascN (fun f => boundarySimilarity .ascending { boundaryFormat := f }) .position
      false { args := [.dataset ⟨exSets, ∅, .sets⟩] } =
    .ok (.pairs [("i,a,b".toList, .num (.dec (3 / 4))), ("j,a,b".toList, .num (.dec (1 / 2)))]) ∧
    SameRequest (.dataset ⟨exMasses, ∅, .mass⟩) (.dataset ⟨exSets, ∅, .sets⟩) :=
  ⟨by decide +kernel, .dataset _ _ exRecoded⟩

example : fleissKappa ascN (compareB .ascending 2 .default) .nltk false
      (.dataset ⟨exSets, {"a".toList, "b".toList}, .sets⟩) = .ok (.value (.dec (71 / 120))) ∧
    fleissKappa ascN (compareB .ascending 2 .default) .mass false (.dict exMasses) =
      .ok (.value (.dec (71 / 120))) ∧ ReadAs .mass (.dict exMasses) .mass :=
  ⟨by decide +kernel, by decide +kernel, .dict _⟩

end SegEval.Props
