import Verif.Lemmas.Compute

namespace SegEval

open Spec

variable {R : Type _}

/-- What one label of one dataset contributes. -/
def OneEntry (f : Seg → Seg → Py R) (permuted : Bool) (a : Items) (label key : Name) (v : R) :
    Prop :=
  ∃ m n sm sn, Coded a label m sm ∧ Coded a label n sn ∧
    (Before a label m n ∨ (permuted = true ∧ Before a label n m)) ∧
    key = keyOf label m n ∧ f sm sn = .ok v

/-- What one label of two datasets contributes. -/
def TwoEntry (f : Seg → Seg → Py R) (a b : Items) (label key : Name) (v : R) : Prop :=
  ∃ m n sm sn, Coded a label m sm ∧ Coded b label n sn ∧ key = keyOf label m n ∧ f sm sn = .ok v

theorem coded_unique {a : Items} {l m : Name} {s s' : Seg} (h : Coded a l m s)
    (h' : Coded a l m s') : s = s' := by
  obtain ⟨c, h1, h2⟩ := h
  obtain ⟨c', h1', h2'⟩ := h'
  rw [h1] at h1'; cases h1'
  rw [h2] at h2'; cases h2'; rfl

theorem oneEntry_functional (f : Seg → Seg → Py R) (permuted : Bool) (a : Items) (hc : NoCommas a)
    (l l' k : Name) (v v' : R) (h : OneEntry f permuted a l k v)
    (h' : OneEntry f permuted a l' k v') : l = l' ∧ v = v' := by
  obtain ⟨m, n, sm, sn, h1, h2, _, h3, h4⟩ := h
  obtain ⟨m', n', sm', sn', h1', h2', _, h3', h4'⟩ := h'
  rw [h3] at h3'
  obtain ⟨rfl, rfl, rfl⟩ := keyOf_inj (hc _ _ _ h1) (hc _ _ _ h1') (hc _ _ _ h2) (hc _ _ _ h2') h3'
  rw [coded_unique h1 h1', coded_unique h2 h2', h4'] at h4
  cases h4
  exact ⟨rfl, rfl⟩

theorem twoEntry_functional (f : Seg → Seg → Py R) (a b : Items) (hc : NoCommas a)
    (hc' : NoCommas b) (l l' k : Name) (v v' : R) (h : TwoEntry f a b l k v)
    (h' : TwoEntry f a b l' k v') : l = l' ∧ v = v' := by
  obtain ⟨m, n, sm, sn, h1, h2, h3, h4⟩ := h
  obtain ⟨m', n', sm', sn', h1', h2', h3', h4'⟩ := h'
  rw [h3] at h3'
  obtain ⟨rfl, rfl, rfl⟩ :=
    keyOf_inj (hc _ _ _ h1) (hc _ _ _ h1') (hc' _ _ _ h2) (hc' _ _ _ h2') h3'
  rw [coded_unique h1 h1', coded_unique h2 h2', h4'] at h4
  cases h4
  exact ⟨rfl, rfl⟩

theorem entryOf_one (f : Seg → Seg → Py R) (permuted : Bool) (a : Items) (label : Name)
    (cm : Codings) (hcm : dictGet a label = some cm) (k : Name) (v : R) :
    EntryOf f label (permuted && !false) cm cm (combinations2 (dictKeys cm)) k v ↔
      OneEntry f permuted a label k v := by
  simp only [Bool.not_false, Bool.and_true]
  constructor
  · rintro ⟨⟨m, n⟩, hp, sm, sn, h1, h2, h3⟩
    rw [mem_combinations2] at hp
    rcases h3 with ⟨rfl, h4⟩ | ⟨h5, rfl, h4⟩
    · exact ⟨m, n, sm, sn, ⟨cm, hcm, h1⟩, ⟨cm, hcm, h2⟩, .inl ⟨cm, hcm, hp⟩, entryKey_eq _ _ _, h4⟩
    · exact ⟨n, m, sn, sm, ⟨cm, hcm, h2⟩, ⟨cm, hcm, h1⟩, .inr ⟨h5, cm, hcm, hp⟩,
        entryKey_eq _ _ _, h4⟩
  · rintro ⟨m, n, sm, sn, ⟨c1, g1, h1⟩, ⟨c2, g2, h2⟩, h3, rfl, h4⟩
    rw [hcm] at g1 g2
    cases g1; cases g2
    rcases h3 with ⟨c, g, h3⟩ | ⟨hp, c, g, h3⟩
    · rw [hcm] at g; cases g
      exact ⟨(m, n), (mem_combinations2 _ _ _).2 h3, sm, sn, h1, h2,
        .inl ⟨(entryKey_eq _ _ _).symm, h4⟩⟩
    · rw [hcm] at g; cases g
      exact ⟨(n, m), (mem_combinations2 _ _ _).2 h3, sn, sm, h2, h1,
        .inr ⟨hp, (entryKey_eq _ _ _).symm, h4⟩⟩

theorem mem_product (xs ys : List Name) (p : Name × Name) :
    p ∈ xs.flatMap (fun m => ys.map (fun n => (m, n))) ↔ p.1 ∈ xs ∧ p.2 ∈ ys := by
  rw [List.mem_flatMap]
  constructor
  · rintro ⟨m, hm, h⟩
    obtain ⟨n, hn, rfl⟩ := List.mem_map.1 h
    exact ⟨hm, hn⟩
  · rintro ⟨h1, h2⟩
    exact ⟨p.1, h1, List.mem_map.2 ⟨p.2, h2, rfl⟩⟩

theorem entryOf_two (f : Seg → Seg → Py R) (permuted : Bool) (a b : Items) (label : Name)
    (cm cn : Codings) (hcm : dictGet a label = some cm) (hcn : dictGet b label = some cn)
    (k : Name) (v : R) :
    EntryOf f label (permuted && !true) cm cn
      ((dictKeys cm).flatMap (fun m => (dictKeys cn).map (fun n => (m, n)))) k v ↔
      TwoEntry f a b label k v := by
  simp only [Bool.not_true, Bool.and_false]
  constructor
  · rintro ⟨⟨m, n⟩, _, sm, sn, h1, h2, h3⟩
    rcases h3 with ⟨rfl, h4⟩ | ⟨h5, _⟩
    · exact ⟨m, n, sm, sn, ⟨cm, hcm, h1⟩, ⟨cn, hcn, h2⟩, entryKey_eq _ _ _, h4⟩
    · cases h5
  · rintro ⟨m, n, sm, sn, ⟨c1, g1, h1⟩, ⟨c2, g2, h2⟩, rfl, h4⟩
    rw [hcm] at g1
    rw [hcn] at g2
    cases g1; cases g2
    exact ⟨(m, n), (mem_product _ _ _).2 ⟨mem_dictKeys.2 ⟨_, h1⟩, mem_dictKeys.2 ⟨_, h2⟩⟩, sm, sn,
      h1, h2, .inl ⟨(entryKey_eq _ _ _).symm, h4⟩⟩

theorem mem_order_labels (o : ClassOrder Name) (a : Items) (b : Option Items) (l : Name) :
    l ∈ o.order [] (labelSet a b) ↔ l ∈ dictKeys a ∨ ∃ b', b = some b' ∧ l ∈ dictKeys b' := by
  rw [o.mem, mem_labelSet]

theorem pairwise_one (o : ClassOrder Name) (f : Seg → Seg → Py R) (permuted : Bool) (a : Items)
    (hc : NoCommas a) {out : List (Name × R)}
    (h : computePairwiseValues o f permuted a none = .ok out) :
    (dictKeys out).Nodup ∧ ∀ k v, dictGet out k = some v ↔ ∃ l, OneEntry f permuted a l k v := by
  unfold computePairwiseValues at h
  have := perLabel_loop (perLabel f permuted a none) (OneEntry f permuted a)
    (fun l l' k v v' h h' => (oneEntry_functional f permuted a hc l l' k v v' h h').2) ?_ _ h
  · refine ⟨this.1, fun k v => ?_⟩
    rw [this.2 k v]
    constructor
    · rintro ⟨l, _, h⟩; exact ⟨l, h⟩
    · rintro ⟨l, h⟩
      refine ⟨l, ?_, h⟩
      rw [mem_order_labels]
      obtain ⟨m, n, sm, sn, ⟨c, hc, _⟩, _⟩ := h
      exact .inl (mem_dictKeys.2 ⟨c, hc⟩)
  · intro l acc acc' hn h
    unfold perLabel at h
    simp only at h
    cases hg : dictGet a l with
    | none => rw [hg] at h; cases h
    | some cm =>
      rw [hg] at h
      simp only at h
      cases hl : labelPairs f l permuted false cm cm (combinations2 (dictKeys cm)) with
      | error e => rw [hl] at h; cases h
      | ok lp =>
        rw [hl] at h
        cases h
        obtain ⟨n1, n2⟩ := labelPairs_spec f l permuted false cm cm _ (by
          intro k v v' h h'
          rw [entryOf_one f permuted a l cm hg] at h h'
          exact (oneEntry_functional f permuted a hc l l k v v' h h').2) hl
        refine ⟨dictUpdate_nodup _ _ hn, lp, ?_, fun k => dictUpdate_get _ _ n1 k⟩
        intro k v
        rw [n2, entryOf_one f permuted a l cm hg]

theorem pairwise_two (o : ClassOrder Name) (f : Seg → Seg → Py R) (permuted : Bool) (a b : Items)
    (hc : NoCommas a) (hc' : NoCommas b) {out : List (Name × R)}
    (h : computePairwiseValues o f permuted a (some b) = .ok out) :
    (dictKeys out).Nodup ∧ ∀ k v, dictGet out k = some v ↔ ∃ l, TwoEntry f a b l k v := by
  unfold computePairwiseValues at h
  have := perLabel_loop (perLabel f permuted a (some b)) (TwoEntry f a b)
    (fun l l' k v v' h h' => (twoEntry_functional f a b hc hc' l l' k v v' h h').2) ?_ _ h
  · refine ⟨this.1, fun k v => ?_⟩
    rw [this.2 k v]
    constructor
    · rintro ⟨l, _, h⟩; exact ⟨l, h⟩
    · rintro ⟨l, h⟩
      refine ⟨l, ?_, h⟩
      rw [mem_order_labels]
      obtain ⟨m, n, sm, sn, ⟨c, hc, _⟩, _⟩ := h
      exact .inl (mem_dictKeys.2 ⟨c, hc⟩)
  · intro l acc acc' hn h
    unfold perLabel at h
    simp only at h
    cases hg : dictGet a l with
    | none =>
      rw [hg] at h
      cases h
      refine ⟨hn, [], fun k v => ?_, fun k => by simp [dictGet]⟩
      constructor
      · intro h; simp [dictGet] at h
      · rintro ⟨m, n, sm, sn, ⟨c, hc, _⟩, _⟩
        rw [hg] at hc; cases hc
    | some cm =>
      cases hg' : dictGet b l with
      | none =>
        rw [hg, hg'] at h
        cases h
        refine ⟨hn, [], fun k v => ?_, fun k => by simp [dictGet]⟩
        constructor
        · intro h; simp [dictGet] at h
        · rintro ⟨m, n, sm, sn, _, ⟨c, hc, _⟩, _⟩
          rw [hg'] at hc; cases hc
      | some cn =>
        rw [hg, hg'] at h
        simp only at h
        cases hl : labelPairs f l permuted true cm cn
            ((dictKeys cm).flatMap (fun m => (dictKeys cn).map (fun n => (m, n)))) with
        | error e => rw [hl] at h; cases h
        | ok lp =>
          rw [hl] at h
          cases h
          obtain ⟨n1, n2⟩ := labelPairs_spec f l permuted true cm cn _ (by
            intro k v v' h h'
            rw [entryOf_two f permuted a b l cm cn hg hg'] at h h'
            exact (twoEntry_functional f a b hc hc' l l k v v' h h').2) hl
          refine ⟨dictUpdate_nodup _ _ hn, lp, ?_, fun k => dictUpdate_get _ _ n1 k⟩
          intro k v
          rw [n2, entryOf_two f permuted a b l cm cn hg hg']

theorem forLoop_error_mem {α S : Type _} (step : S → α → Py S) (xs : List α) (s : S) {e : PyErr}
    (h : forLoop xs s step = .error e) : ∃ x ∈ xs, ∃ s', step s' x = .error e := by
  induction xs generalizing s with
  | nil => cases h
  | cons x xs ih =>
    simp only [forLoop] at h
    cases h1 : step s x with
    | error e' => rw [h1] at h; cases h; exact ⟨x, by simp, s, h1⟩
    | ok s' =>
      rw [h1] at h
      obtain ⟨y, hy, h⟩ := ih s' h
      exact ⟨y, by simp [hy], h⟩

theorem pairwise_one_error (o : ClassOrder Name) (f : Seg → Seg → Py R) (permuted : Bool)
    (a : Items) {e : PyErr} (h : computePairwiseValues o f permuted a none = .error e) :
    ∃ l m n sm sn, Coded a l m sm ∧ Coded a l n sn ∧
      (Before a l m n ∨ (permuted = true ∧ Before a l n m)) ∧ f sm sn = .error e := by
  unfold computePairwiseValues at h
  obtain ⟨l, hl, acc, h⟩ := forLoop_error_mem _ _ _ h
  rw [mem_order_labels] at hl
  unfold perLabel at h
  simp only at h
  cases hg : dictGet a l with
  | none =>
    rcases hl with hl | ⟨b, hb, _⟩
    · obtain ⟨c, hc⟩ := mem_dictKeys.1 hl
      rw [hg] at hc; cases hc
    · cases hb
  | some cm =>
    rw [hg] at h
    simp only at h
    cases hlp : labelPairs f l permuted false cm cm (combinations2 (dictKeys cm)) with
    | ok lp => rw [hlp] at h; cases h
    | error e' =>
      rw [hlp] at h
      cases h
      obtain ⟨⟨m, n⟩, hp, sm, sn, h1, h2, h3⟩ := labelPairs_error f l permuted false cm cm _ (by
        rintro ⟨m, n⟩ hp
        rw [mem_combinations2] at hp
        exact ⟨mem_dictKeys.1 (hp.subset (by simp)), mem_dictKeys.1 (hp.subset (by simp))⟩) hlp
      rw [mem_combinations2] at hp
      rcases h3 with h3 | ⟨h4, h3⟩
      · exact ⟨l, m, n, sm, sn, ⟨cm, hg, h1⟩, ⟨cm, hg, h2⟩, .inl ⟨cm, hg, hp⟩, h3⟩
      · exact ⟨l, n, m, sn, sm, ⟨cm, hg, h2⟩, ⟨cm, hg, h1⟩, .inr ⟨by simpa using h4, cm, hg, hp⟩, h3⟩

theorem pairwise_two_error (o : ClassOrder Name) (f : Seg → Seg → Py R) (permuted : Bool)
    (a b : Items) {e : PyErr} (h : computePairwiseValues o f permuted a (some b) = .error e) :
    ∃ l m n sm sn, Coded a l m sm ∧ Coded b l n sn ∧ f sm sn = .error e := by
  unfold computePairwiseValues at h
  obtain ⟨l, hl, acc, h⟩ := forLoop_error_mem _ _ _ h
  unfold perLabel at h
  simp only at h
  cases hg : dictGet a l with
  | none => rw [hg] at h; cases h
  | some cm =>
    cases hg' : dictGet b l with
    | none => rw [hg, hg'] at h; cases h
    | some cn =>
      rw [hg, hg'] at h
      simp only at h
      cases hlp : labelPairs f l permuted true cm cn
          ((dictKeys cm).flatMap (fun m => (dictKeys cn).map (fun n => (m, n)))) with
      | ok lp => rw [hlp] at h; cases h
      | error e' =>
        rw [hlp] at h
        cases h
        obtain ⟨⟨m, n⟩, hp, sm, sn, h1, h2, h3⟩ := labelPairs_error f l permuted true cm cn _ (by
          rintro ⟨m, n⟩ hp
          rw [mem_product] at hp
          exact ⟨mem_dictKeys.1 hp.1, mem_dictKeys.1 hp.2⟩) hlp
        rcases h3 with h3 | ⟨h4, h3⟩
        · exact ⟨l, m, n, sm, sn, ⟨cm, hg, h1⟩, ⟨cn, hg', h2⟩, h3⟩
        · simp at h4

theorem forLoop_ok_mem {α S : Type _} (step : S → α → Py S) (xs : List α) (s : S) {out : S}
    (h : forLoop xs s step = .ok out) : ∀ x ∈ xs, ∃ s' s'', step s' x = .ok s'' := by
  induction xs generalizing s with
  | nil => simp
  | cons x xs ih =>
    simp only [forLoop] at h
    cases h1 : step s x with
    | error e' => rw [h1] at h; cases h
    | ok s' =>
      rw [h1] at h
      intro y hy
      rcases List.mem_cons.1 hy with rfl | hy
      · exact ⟨s, s', h1⟩
      · exact ih s' h y hy

theorem labelPairs_ok (f : Seg → Seg → Py R) (label : Name) (permuted two : Bool)
    (cm cn : Codings) (pairs : List (Name × Name)) {out : List (Name × R)}
    (h : labelPairs f label permuted two cm cn pairs = .ok out) :
    ∀ p ∈ pairs, ∀ sm sn, dictGet cm p.1 = some sm → dictGet cn p.2 = some sn →
      (∃ v, f sm sn = .ok v) ∧ ((permuted && !two) = true → ∃ v, f sn sm = .ok v) := by
  intro p hp sm sn hm hn
  obtain ⟨acc, acc', h⟩ := forLoop_ok_mem _ _ _ h p hp
  rw [pairStep_cases f label permuted two cm cn acc p hm hn] at h
  cases h1 : f sm sn with
  | error e => rw [h1] at h; cases h
  | ok v =>
    refine ⟨⟨v, rfl⟩, fun hpt => ?_⟩
    rw [h1] at h
    simp only at h
    rw [if_pos hpt] at h
    cases h2 : f sn sm with
    | error e => rw [h2] at h; cases h
    | ok v' => exact ⟨v', rfl⟩

theorem pairwise_one_ok (o : ClassOrder Name) (f : Seg → Seg → Py R) (permuted : Bool) (a : Items)
    {out : List (Name × R)} (h : computePairwiseValues o f permuted a none = .ok out)
    {l m n : Name} {sm sn : Seg} (hm : Coded a l m sm) (hn : Coded a l n sn)
    (hb : Before a l m n ∨ (permuted = true ∧ Before a l n m)) : ∃ v, f sm sn = .ok v := by
  unfold computePairwiseValues at h
  obtain ⟨c, g1, hm⟩ := hm
  obtain ⟨c', g2, hn⟩ := hn
  rw [g1] at g2; cases g2
  obtain ⟨acc, acc', h⟩ := forLoop_ok_mem _ _ _ h l
    ((mem_order_labels o a none l).2 (.inl (mem_dictKeys.2 ⟨_, g1⟩)))
  unfold perLabel at h
  simp only [g1] at h
  cases hlp : labelPairs f l permuted false c c (combinations2 (dictKeys c)) with
  | error e' => rw [hlp] at h; cases h
  | ok lp =>
    rcases hb with ⟨c1, g2, hb⟩ | ⟨hp, c1, g2, hb⟩
    · rw [g1] at g2; cases g2
      exact (labelPairs_ok f l permuted false c c _ hlp (m, n) ((mem_combinations2 _ _ _).2 hb) sm sn
        hm hn).1
    · rw [g1] at g2; cases g2
      exact (labelPairs_ok f l permuted false c c _ hlp (n, m) ((mem_combinations2 _ _ _).2 hb) sn sm
        hn hm).2 (by simp [hp])

theorem pairwise_two_ok (o : ClassOrder Name) (f : Seg → Seg → Py R) (permuted : Bool) (a b : Items)
    {out : List (Name × R)} (h : computePairwiseValues o f permuted a (some b) = .ok out)
    {l m n : Name} {sm sn : Seg} (hm : Coded a l m sm) (hn : Coded b l n sn) :
    ∃ v, f sm sn = .ok v := by
  unfold computePairwiseValues at h
  obtain ⟨c, g1, hm⟩ := hm
  obtain ⟨c', g2, hn⟩ := hn
  obtain ⟨acc, acc', h⟩ := forLoop_ok_mem _ _ _ h l
    ((mem_order_labels o a (some b) l).2 (.inl (mem_dictKeys.2 ⟨_, g1⟩)))
  unfold perLabel at h
  simp only [g1, g2] at h
  cases hlp : labelPairs f l permuted true c c'
      ((dictKeys c).flatMap (fun m => (dictKeys c').map (fun n => (m, n)))) with
  | error e' => rw [hlp] at h; cases h
  | ok lp =>
    exact (labelPairs_ok f l permuted true c c' _ hlp (m, n)
      ((mem_product _ _ _).2 ⟨mem_dictKeys.2 ⟨_, hm⟩, mem_dictKeys.2 ⟨_, hn⟩⟩) sm sn hm hn).1

/-! ## Counting -/

theorem length_combinations2 {α : Type _} (l : List α) :
    (combinations2 l).length = l.length.choose 2 := by
  induction l with
  | nil => rfl
  | cons x xs ih =>
    rw [combinations2, List.length_append, List.length_map, ih, List.length_cons,
      Nat.choose_succ_succ' xs.length 1, Nat.choose_one_right]

theorem nodup_combinations2 {α : Type _} (l : List α) (h : l.Nodup) :
    (combinations2 l).Nodup ∧ ∀ p ∈ combinations2 l, (p.2, p.1) ∉ combinations2 l := by
  induction l with
  | nil => simp [combinations2]
  | cons x xs ih =>
    rw [List.nodup_cons] at h
    obtain ⟨h1, h2⟩ := ih h.2
    have hin : ∀ p ∈ combinations2 xs, p.1 ∈ xs ∧ p.2 ∈ xs := by
      rintro ⟨m, n⟩ hp
      rw [mem_combinations2] at hp
      exact ⟨hp.subset (by simp), hp.subset (by simp)⟩
    rw [combinations2]
    refine ⟨List.Nodup.append (List.Nodup.map (fun a b h => by cases h; rfl) h.2) h1 ?_, ?_⟩
    · intro p hp hp'
      obtain ⟨y, hy, rfl⟩ := List.mem_map.1 hp
      exact h.1 (hin _ hp').1
    · intro p hp hp'
      rcases List.mem_append.1 hp with hp | hp
      · obtain ⟨y, hy, rfl⟩ := List.mem_map.1 hp
        rcases List.mem_append.1 hp' with hp' | hp'
        · obtain ⟨z, hz, e⟩ := List.mem_map.1 hp'
          simp only [Prod.mk.injEq] at e
          exact h.1 (e.1 ▸ hy)
        · exact h.1 (hin _ hp').2
      · rcases List.mem_append.1 hp' with hp' | hp'
        · obtain ⟨z, hz, e⟩ := List.mem_map.1 hp'
          simp only [Prod.mk.injEq] at e
          exact h.1 (e.1 ▸ (hin _ hp).2)
        · exact h2 p hp hp'

/-- The triples a dataset contributes. -/
def triples (permuted : Bool) (a : Items) : List (Name × Name × Name) :=
  a.flatMap (fun e => (combinations2 (dictKeys e.2)).map (fun p => (e.1, p.1, p.2)) ++
    if permuted then (combinations2 (dictKeys e.2)).map (fun p => (e.1, p.2, p.1)) else [])

theorem mem_triples (permuted : Bool) (a : Items) (hd : IsDict a) (l m n : Name) :
    (l, m, n) ∈ triples permuted a ↔
      (Before a l m n ∨ (permuted = true ∧ Before a l n m)) := by
  have hB : ∀ m n, Before a l m n ↔ ∃ c, (l, c) ∈ a ∧ (m, n) ∈ combinations2 (dictKeys c) := by
    intro m n
    constructor
    · rintro ⟨c, h1, h2⟩; exact ⟨c, dictGet_mem h1, (mem_combinations2 _ _ _).2 h2⟩
    · rintro ⟨c, h1, h2⟩; exact ⟨c, dictGet_of_mem hd.1 h1, (mem_combinations2 _ _ _).1 h2⟩
  rw [hB, hB]
  unfold triples
  rw [List.mem_flatMap]
  constructor
  · rintro ⟨⟨l', c⟩, h1, h2⟩
    rcases List.mem_append.1 h2 with h2 | h2
    · obtain ⟨⟨x, y⟩, h3, h4⟩ := List.mem_map.1 h2
      cases h4
      exact .inl ⟨c, h1, h3⟩
    · cases permuted with
      | false => simp at h2
      | true =>
        rw [if_pos rfl] at h2
        obtain ⟨⟨x, y⟩, h3, h4⟩ := List.mem_map.1 h2
        cases h4
        exact .inr ⟨rfl, c, h1, h3⟩
  · rintro (⟨c, h1, h2⟩ | ⟨rfl, c, h1, h2⟩)
    · exact ⟨(l, c), h1, List.mem_append_left _ (List.mem_map.2 ⟨_, h2, rfl⟩)⟩
    · refine ⟨(l, c), h1, List.mem_append_right _ ?_⟩
      rw [if_pos rfl]
      exact List.mem_map.2 ⟨_, h2, rfl⟩

theorem nodup_triples (permuted : Bool) (a : Items) (hd : IsDict a) :
    (triples permuted a).Nodup := by
  unfold triples
  obtain ⟨hd1, hd2⟩ := hd
  induction a with
  | nil => simp
  | cons e es ih =>
    simp only [List.map_cons, List.nodup_cons] at hd1
    rw [List.flatMap_cons]
    refine List.Nodup.append ?_ (ih hd1.2 (fun e he => hd2 e (by simp [he]))) ?_
    · obtain ⟨h1, h2⟩ := nodup_combinations2 (dictKeys e.2) (hd2 e (by simp))
      refine List.Nodup.append (List.Nodup.map (fun a b h => by
        obtain ⟨a1, a2⟩ := a; obtain ⟨b1, b2⟩ := b; cases h; rfl) h1) ?_ ?_
      · split
        · exact List.Nodup.map (fun a b h => by
            obtain ⟨a1, a2⟩ := a; obtain ⟨b1, b2⟩ := b; cases h; rfl) h1
        · simp
      · intro t ht ht'
        split at ht'
        · obtain ⟨p, hp, rfl⟩ := List.mem_map.1 ht
          obtain ⟨q, hq, e⟩ := List.mem_map.1 ht'
          simp only [Prod.mk.injEq] at e
          refine h2 p hp ?_
          rw [← e.2.1, ← e.2.2]
          exact hq
        · simp at ht'
    · have hlab : ∀ (x : Name × Codings) (t : Name × Name × Name),
          t ∈ (combinations2 (dictKeys x.2)).map (fun p => (x.1, p.1, p.2)) ++
            (if permuted then (combinations2 (dictKeys x.2)).map (fun p => (x.1, p.2, p.1)) else [])
          → t.1 = x.1 := by
        intro x t ht
        rcases List.mem_append.1 ht with ht | ht
        · obtain ⟨p, hp, rfl⟩ := List.mem_map.1 ht; rfl
        · split at ht
          · obtain ⟨p, hp, rfl⟩ := List.mem_map.1 ht; rfl
          · simp at ht
      intro t ht ht'
      obtain ⟨x, hx, ht'⟩ := List.mem_flatMap.1 ht'
      have := hlab e t ht
      rw [hlab x t ht'] at this
      exact hd1.1 (List.mem_map.2 ⟨x, hx, this⟩)

theorem length_triples (permuted : Bool) (a : Items) :
    (triples permuted a).length =
      (a.map (fun e => (if permuted then 2 else 1) * e.2.length.choose 2)).sum := by
  unfold triples
  rw [List.length_flatMap]
  congr 1
  refine List.map_congr_left (fun e _ => ?_)
  cases permuted <;> simp [length_combinations2, dictKeys, two_mul]

theorem before_coded {a : Items} {l m n : Name} (h : Before a l m n) :
    (∃ s, Coded a l m s) ∧ ∃ s, Coded a l n s := by
  obtain ⟨c, h1, h2⟩ := h
  obtain ⟨s, hs⟩ := mem_dictKeys.1 (h2.subset (by simp : m ∈ [m, n]))
  obtain ⟨s', hs'⟩ := mem_dictKeys.1 (h2.subset (by simp : n ∈ [m, n]))
  exact ⟨⟨s, c, h1, hs⟩, s', c, h1, hs'⟩

/-- The number of entries. -/
theorem pairwise_one_length (o : ClassOrder Name) (f : Seg → Seg → Py R) (permuted : Bool)
    (a : Items) (hd : IsDict a) (hc : NoCommas a) {out : List (Name × R)}
    (h : computePairwiseValues o f permuted a none = .ok out) :
    out.length = (a.map (fun e => (if permuted then 2 else 1) * e.2.length.choose 2)).sum := by
  obtain ⟨h1, h2⟩ := pairwise_one o f permuted a hc h
  rw [← length_triples]
  have hco : ∀ t ∈ triples permuted a, (∃ s, Coded a t.1 t.2.1 s) ∧ ∃ s, Coded a t.1 t.2.2 s := by
    rintro ⟨l, m, n⟩ ht
    rw [mem_triples permuted a hd] at ht
    rcases ht with ht | ⟨_, ht⟩
    · exact before_coded ht
    · exact (before_coded ht).symm
  have hnd : ((triples permuted a).map (fun t => keyOf t.1 t.2.1 t.2.2)).Nodup := by
    refine List.Nodup.map_on ?_ (nodup_triples permuted a hd)
    rintro ⟨l, m, n⟩ ht ⟨l', m', n'⟩ ht' e
    obtain ⟨⟨s1, q1⟩, s2, q2⟩ := hco _ ht
    obtain ⟨⟨s3, q3⟩, s4, q4⟩ := hco _ ht'
    obtain ⟨rfl, rfl, rfl⟩ := keyOf_inj (hc _ _ _ q1) (hc _ _ _ q3) (hc _ _ _ q2) (hc _ _ _ q4) e
    rfl
  have hperm : (dictKeys out).Perm ((triples permuted a).map (fun t => keyOf t.1 t.2.1 t.2.2)) := by
    rw [List.perm_ext_iff_of_nodup h1 hnd]
    intro k
    rw [mem_dictKeys, List.mem_map]
    constructor
    · rintro ⟨v, hv⟩
      obtain ⟨l, m, n, sm, sn, _, _, hb, hk, _⟩ := (h2 k v).1 hv
      exact ⟨(l, m, n), (mem_triples permuted a hd l m n).2 hb, hk.symm⟩
    · rintro ⟨⟨l, m, n⟩, ht, rfl⟩
      obtain ⟨⟨s1, q1⟩, s2, q2⟩ := hco _ ht
      rw [mem_triples permuted a hd] at ht
      obtain ⟨v, hv⟩ := pairwise_one_ok o f permuted a h q1 q2 ht
      exact ⟨v, (h2 _ v).2 ⟨l, m, n, s1, s2, q1, q2, ht, rfl, hv⟩⟩
  have := hperm.length_eq
  simpa [dictKeys] using this

end SegEval
