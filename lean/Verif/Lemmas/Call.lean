import Verif.Lemmas.Pairwise

namespace SegEval

open Spec

variable {R : Type _}

theorem rejectExtra_false (f : BoundaryFormat → Seg → Seg → Py R) (fmt : BoundaryFormat) :
    rejectExtra false f fmt = f fmt := by
  funext a b
  simp [rejectExtra]

theorem parse_two {c : CallArgs} {h r : ArgVal} (hc : Two c h r) :
    parseArgs c = .ok (h, r, .none, false) := by
  rcases hc with rfl | rfl <;> rfl

theorem parse_one {c : CallArgs} {d : ArgVal} (hc : One c d) :
    parseArgs c = .ok (.none, .none, d, false) := by
  rcases hc with rfl | rfl <;> rfl

theorem wrap_standsFor {h : ArgVal} {s : Seg} (hs : StandsFor h s) : h.wrapInt = .seg s := by
  cases hs <;> rfl

theorem standsFor_of_wrap {h : ArgVal} {s : Seg} (hs : h.wrapInt = .seg s) : StandsFor h s := by
  cases h with
  | none => cases hs
  | int n => cases hs; exact .int n
  | seg s => cases hs; exact .seg s
  | dataset d => cases hs
  | dict d => cases hs

theorem dataset_of_wrap {h : ArgVal} {d : Dataset} (hs : h.wrapInt = .dataset d) :
    h = .dataset d := by
  cases h <;> first | exact hs | cases hs

theorem items_truthy (d : Dataset) : (ArgVal.dataset d).truthy = true ↔ d.items ≠ [] := by
  simp [ArgVal.truthy]

theorem call_asks (o : ClassOrder Name) (f : BoundaryFormat → Seg → Seg → Py R)
    (fmt : BoundaryFormat) (permuted : Bool) (c : CallArgs) (q : Request) (h : Asks c q) :
    fncMetric o f fmt permuted c =
      reply f fmt (fun g a b => computePairwiseValues o g permuted a b) q := by
  cases q with
  | segmentations a b =>
    obtain ⟨ha, hb, h, r, h1, h2, h3⟩ := h
    unfold fncMetric
    rw [parse_two h3]
    simp only [wrap_standsFor h1, wrap_standsFor h2, rejectExtra_false]
    rw [if_neg (by simp [ArgVal.truthy])]
    rw [if_pos (by simp [ArgVal.truthy, ha, hb])]
    simp only [reply]
    cases f fmt a b <;> rfl
  | datasets a b =>
    obtain ⟨ha, hb, hf, h3⟩ := h
    unfold fncMetric
    rw [parse_two h3]
    simp only [ArgVal.wrapInt, rejectExtra_false]
    rw [if_neg (by simp [ArgVal.truthy])]
    rw [if_pos (by simp [ArgVal.truthy, ha, hb]), if_neg (by simp [hf])]
    simp only [reply]
    cases computePairwiseValues o (f a.boundaryFormat) permuted a.items (some b.items) <;> rfl
  | dataset d =>
    obtain ⟨hd, h⟩ := h
    unfold fncMetric
    rw [parse_one h]
    simp only [rejectExtra_false]
    rw [if_pos (by simp [ArgVal.truthy, hd])]
    simp only [reply]
    cases computePairwiseValues o (f d.boundaryFormat) permuted d.items none <;> rfl

theorem pairwise_extra_one (o : ClassOrder Name) (f : BoundaryFormat → Seg → Seg → Py R)
    (fmt : BoundaryFormat) (permuted : Bool) (a : Items) {out : List (Name × R)}
    (h : computePairwiseValues o (rejectExtra true f fmt) permuted a none = .ok out) :
    out = [] := by
  have hE : ∀ l k v, ¬ OneEntry (rejectExtra true f fmt) permuted a l k v := by
    rintro l k v ⟨m, n, sm, sn, _, _, _, _, h⟩
    simp [rejectExtra] at h
  unfold computePairwiseValues at h
  have := perLabel_loop (perLabel (rejectExtra true f fmt) permuted a none)
    (OneEntry (rejectExtra true f fmt) permuted a)
    (fun l l' k v v' h h' => absurd h (hE _ _ _)) ?_ _ h
  · cases out with
    | nil => rfl
    | cons e es =>
      obtain ⟨l, _, h⟩ := (this.2 e.1 e.2).1 (by simp [dictGet])
      exact absurd h (hE _ _ _)
  · intro l acc acc' hn h
    unfold perLabel at h
    simp only at h
    cases hg : dictGet a l with
    | none => rw [hg] at h; cases h
    | some cm =>
      rw [hg] at h
      simp only at h
      cases hl : labelPairs (rejectExtra true f fmt) l permuted false cm cm
          (combinations2 (dictKeys cm)) with
      | error e => rw [hl] at h; cases h
      | ok lp =>
        rw [hl] at h
        cases h
        obtain ⟨n1, n2⟩ := labelPairs_spec (rejectExtra true f fmt) l permuted false cm cm _ (by
          intro k v v' h h'
          rw [entryOf_one _ permuted a l cm hg] at h
          exact absurd h (hE _ _ _)) hl
        refine ⟨dictUpdate_nodup _ _ hn, lp, ?_, fun k => dictUpdate_get _ _ n1 k⟩
        intro k v
        rw [n2, entryOf_one _ permuted a l cm hg]

theorem pairwise_extra_two (o : ClassOrder Name) (f : BoundaryFormat → Seg → Seg → Py R)
    (fmt : BoundaryFormat) (permuted : Bool) (a b : Items) {out : List (Name × R)}
    (h : computePairwiseValues o (rejectExtra true f fmt) permuted a (some b) = .ok out) :
    out = [] := by
  have hnone : ∀ l cm cn, dictGet a l = some cm → dictGet b l = some cn →
      (dictKeys cm).flatMap (fun m => (dictKeys cn).map (fun n => (m, n))) = [] := by
    intro l cm cn h1 h2
    rw [List.eq_nil_iff_forall_not_mem]
    rintro ⟨m, n⟩ hp
    rw [mem_product] at hp
    obtain ⟨sm, hm⟩ := mem_dictKeys.1 hp.1
    obtain ⟨sn, hn⟩ := mem_dictKeys.1 hp.2
    obtain ⟨v, hv⟩ := pairwise_two_ok o _ permuted a b h ⟨cm, h1, hm⟩ ⟨cn, h2, hn⟩
    simp [rejectExtra] at hv
  unfold computePairwiseValues at h
  have key : ∀ ls : List Name, forLoop ls [] (perLabel (rejectExtra true f fmt) permuted a (some b))
      = .ok out → out = [] := by
    intro ls
    induction ls with
    | nil => intro h; cases h; rfl
    | cons l ls ih =>
      intro h
      rw [forLoop] at h
      have : perLabel (rejectExtra true f fmt) permuted a (some b) [] l = .ok [] := by
        unfold perLabel
        simp only
        cases h1 : dictGet a l with
        | none => rfl
        | some cm =>
          cases h2 : dictGet b l with
          | none => rfl
          | some cn =>
            simp only
            rw [hnone l cm cn h1 h2]
            rfl
      rw [this] at h
      exact ih h
  exact key _ h

theorem parse_cases (c : CallArgs) {h r d : ArgVal} {extra : Bool}
    (hp : parseArgs c = .ok (h, r, d, extra)) :
    (d = .none ∧ (extra = false → (h = .none ∧ r = .none) ∨ Two c h r)) ∨
      (h = .none ∧ r = .none ∧ (extra = false → One c d)) := by
  obtain ⟨args, hy, re, da, un⟩ := c
  match args with
  | [x, y] =>
    simp only [parseArgs, Except.ok.injEq, Prod.mk.injEq] at hp
    obtain ⟨rfl, rfl, rfl, rfl⟩ := hp
    refine .inl ⟨rfl, fun h => .inr (.inl ?_)⟩
    cases hy <;> cases re <;> cases da <;> cases un <;> simp at h ⊢
  | [x] =>
    simp only [parseArgs, Except.ok.injEq, Prod.mk.injEq] at hp
    obtain ⟨rfl, rfl, rfl, rfl⟩ := hp
    refine .inr ⟨rfl, rfl, fun h => .inl ?_⟩
    cases hy <;> cases re <;> cases da <;> cases un <;> simp at h ⊢
  | [] =>
    cases hy <;> cases re <;> cases da <;> simp only [parseArgs, Except.ok.injEq, Prod.mk.injEq, reduceCtorEq] at hp <;>
      obtain ⟨rfl, rfl, rfl, rfl⟩ := hp
    · exact .inr ⟨rfl, rfl, fun h => .inr (by cases un <;> first | rfl | cases h)⟩
    · exact .inr ⟨rfl, rfl, fun h => by cases h⟩
    · exact .inr ⟨rfl, rfl, fun h => by cases h⟩
    · exact .inl ⟨rfl, fun h => .inr (.inr (by cases un <;> first | rfl | cases h))⟩
    · exact .inl ⟨rfl, fun h => by cases h⟩
  | x :: y :: z :: l =>
    simp only [parseArgs, Except.ok.injEq, Prod.mk.injEq] at hp
    obtain ⟨rfl, rfl, rfl, rfl⟩ := hp
    exact .inl ⟨rfl, fun _ => .inl ⟨rfl, rfl⟩⟩

theorem call_ok (o : ClassOrder Name) (f : BoundaryFormat → Seg → Seg → Py R)
    (fmt : BoundaryFormat) (permuted : Bool) (c : CallArgs) {out : CallOut R}
    (h : fncMetric o f fmt permuted c = .ok out) : out = .pairs [] ∨ ∃ q, Asks c q := by
  unfold fncMetric at h
  cases hp : parseArgs c with
  | error e => rw [hp] at h; cases h
  | ok p =>
    obtain ⟨h0, r0, d, extra⟩ := p
    rw [hp] at h
    simp only at h
    have hc := parse_cases c hp
    by_cases hd : d.truthy = true
    · rw [if_pos hd] at h
      have hone : h0 = .none ∧ r0 = .none ∧ (extra = false → One c d) := by
        rcases hc with ⟨rfl, _⟩ | hc
        · simp [ArgVal.truthy] at hd
        · exact hc
      cases d with
      | none => cases h
      | int n => cases h
      | seg s => cases h
      | dict s => cases h
      | dataset ds =>
        simp only at h
        cases hcp : computePairwiseValues o (rejectExtra extra f ds.boundaryFormat) permuted
            ds.items Option.none with
        | error e => rw [hcp] at h; cases h
        | ok l =>
          rw [hcp] at h
          cases h
          cases extra with
          | true => left; rw [pairwise_extra_one o f _ permuted _ hcp]
          | false => right; exact ⟨.dataset ds, (items_truthy ds).1 hd, hone.2.2 rfl⟩
    · rw [if_neg hd] at h
      by_cases hb : (h0.wrapInt.truthy && r0.wrapInt.truthy) = true
      · rw [if_pos hb] at h
        rw [Bool.and_eq_true] at hb
        have htwo : extra = false → Two c h0 r0 := by
          intro he
          rcases hc with ⟨_, hc⟩ | ⟨rfl, _, _⟩
          · rcases hc he with ⟨rfl, _⟩ | hc
            · simp [ArgVal.wrapInt, ArgVal.truthy] at hb
            · exact hc
          · simp [ArgVal.wrapInt, ArgVal.truthy] at hb
        split at h
        · rename_i dh dr e1 e2
          split at h
          · cases h
          · rename_i hfmt
            cases hcp : computePairwiseValues o (rejectExtra extra f dh.boundaryFormat) permuted
                dh.items (some dr.items) with
            | error e => rw [hcp] at h; cases h
            | ok l =>
              rw [hcp] at h
              cases h
              cases extra with
              | true => left; rw [pairwise_extra_two o f _ permuted _ _ hcp]
              | false =>
                right
                rw [e1, e2] at hb
                rw [dataset_of_wrap e1, dataset_of_wrap e2] at htwo
                exact ⟨.datasets dh dr, (items_truthy dh).1 hb.1, (items_truthy dr).1 hb.2,
                  not_not.1 hfmt, htwo rfl⟩
        · rename_i sh sr e1 e2
          rw [e1, e2] at hb
          cases extra with
          | true => simp [rejectExtra] at h
          | false =>
            right
            exact ⟨.segmentations sh sr, hb.1, hb.2, h0, r0, standsFor_of_wrap e1,
              standsFor_of_wrap e2, htwo rfl⟩
        · cases h
      · rw [if_neg hb] at h; cases h

theorem two_documented (o : ClassOrder Name) (f : BoundaryFormat → Seg → Seg → Py R)
    (fmt : BoundaryFormat) (permuted : Bool) (c : CallArgs) (h r : ArgVal) (hc : Two c h r)
    (h2 : (∀ d, h ≠ .dict d) ∧ ∀ d, r ≠ .dict d)
    (h3 : ((∀ d, h ≠ .dataset d) ∧ ∀ d, r ≠ .dataset d) ∨
      ((∀ s, ¬ StandsFor h s) ∧ ∀ s, ¬ StandsFor r s))
    (hn : ∀ q, ¬ Asks c q) : fncMetric o f fmt permuted c = .error .segmentationMetricError := by
  unfold fncMetric
  rw [parse_two hc]
  simp only
  rw [if_neg (by simp [ArgVal.truthy])]
  by_cases hb : (h.wrapInt.truthy && r.wrapInt.truthy) = true
  · rw [if_pos hb]
    rw [Bool.and_eq_true] at hb
    split
    · rename_i dh dr e1 e2
      rw [e1, e2] at hb
      by_cases hf : dh.boundaryFormat = dr.boundaryFormat
      · exact absurd ⟨(items_truthy dh).1 hb.1, (items_truthy dr).1 hb.2, hf,
          by rw [← dataset_of_wrap e1, ← dataset_of_wrap e2]; exact hc⟩ (hn (.datasets dh dr))
      · rw [if_pos hf]
    · rename_i sh sr e1 e2
      rw [e1, e2] at hb
      exact absurd ⟨hb.1, hb.2, h, r, standsFor_of_wrap e1, standsFor_of_wrap e2, hc⟩
        (hn (.segmentations sh sr))
    · rename_i n1 n2
      exfalso
      have hseg : ∀ x : ArgVal, x.wrapInt.truthy = true → (∀ d, x ≠ .dict d) →
          (∃ s, x.wrapInt = .seg s ∧ StandsFor x s) ∨ ∃ d, x = .dataset d := by
        intro x hx hd
        cases x with
        | none => simp [ArgVal.wrapInt, ArgVal.truthy] at hx
        | int n => exact .inl ⟨_, rfl, .int n⟩
        | seg s => exact .inl ⟨_, rfl, .seg s⟩
        | dataset d => exact .inr ⟨d, rfl⟩
        | dict d => exact absurd rfl (hd d)
      rcases hseg h hb.1 h2.1 with ⟨s, e1, s1⟩ | ⟨d, e1⟩
      · rcases hseg r hb.2 h2.2 with ⟨s', e2, s2⟩ | ⟨d', e2⟩
        · exact n2 s s' e1 e2
        · rcases h3 with h3 | h3
          · exact h3.2 _ e2
          · exact h3.1 _ s1
      · rcases hseg r hb.2 h2.2 with ⟨s', e2, s2⟩ | ⟨d', e2⟩
        · rcases h3 with h3 | h3
          · exact h3.1 _ e1
          · exact h3.2 _ s2
        · exact n1 d d' (by rw [e1]; rfl) (by rw [e2]; rfl)
  · rw [if_neg hb]

theorem call_documented (o : ClassOrder Name) (f : BoundaryFormat → Seg → Seg → Py R)
    (fmt : BoundaryFormat) (permuted : Bool) (c : CallArgs) (hc : Documented c)
    (hn : ∀ q, ¬ Asks c q) : fncMetric o f fmt permuted c = .error .segmentationMetricError := by
  cases hc with
  | positional l h h2 h3 =>
    match l with
    | [] => rfl
    | [x] => simp at h
    | [x, y] =>
      refine two_documented o f fmt permuted _ x y (.inl rfl) ⟨h2 x (by simp), h2 y (by simp)⟩ ?_ hn
      rcases h3 with h3 | h3
      · exact .inl ⟨h3 x (by simp), h3 y (by simp)⟩
      · exact .inr ⟨h3 x (by simp), h3 y (by simp)⟩
    | x :: y :: z :: l => rfl
  | one _ x h h2 =>
    unfold fncMetric
    rw [parse_one h]
    simp only
    rcases h2 with rfl | ⟨d, rfl⟩
    · rfl
    · rw [if_neg, if_neg (by simp [ArgVal.wrapInt, ArgVal.truthy])]
      intro hd
      exact hn (.dataset d) ⟨(items_truthy d).1 hd, h⟩
  | keywords h r h2 h3 =>
    cases h with
    | none => cases r <;> rfl
    | some h =>
      cases r with
      | none => rfl
      | some r =>
        refine two_documented o f fmt permuted _ h r (.inr rfl)
          ⟨h2 h (.inl rfl), h2 r (.inr rfl)⟩ ?_ hn
        rcases h3 with h3 | h3
        · exact .inl ⟨h3 h (.inl rfl), h3 r (.inr rfl)⟩
        · exact .inr ⟨h3 h (.inl rfl), h3 r (.inr rfl)⟩

end SegEval
