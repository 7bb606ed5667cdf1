import Verif.Lemmas.AgreementOrder
import Verif.Lemmas.Pairwise
import Verif.Lemmas.Summary

/-!
# Pairwise comparison of rearranged data
-/

namespace SegEval

open Spec

variable {R : Type}

/-! ## Values by triple -/

/-- The segmentation of `label` by `m`. -/
def codingOf (a : Items) (label m : Name) : Option Seg := (dictGet a label).bind (fun c => dictGet c m)

theorem codingOf_some {a : Items} {l m : Name} {s : Seg} : codingOf a l m = some s ↔ Coded a l m s := by
  unfold codingOf Coded
  rw [Option.bind_eq_some_iff]

/-- The metric of the codings of a triple, if it is defined. -/
def tripleVal (f : Seg → Seg → Py R) (a : Items) (t : Name × Name × Name) : Option R :=
  (codingOf a t.1 t.2.1).bind (fun s => (codingOf a t.1 t.2.2).bind (fun s' => (f s s').toOption))

theorem tripleVal_some {f : Seg → Seg → Py R} {a : Items} {l m n : Name} {v : R} :
    tripleVal f a (l, m, n) = some v ↔ ∃ sm sn, Coded a l m sm ∧ Coded a l n sn ∧ f sm sn = .ok v := by
  unfold tripleVal
  simp only [Option.bind_eq_some_iff, codingOf_some]
  constructor
  · rintro ⟨s, h1, s', h2, h3⟩
    refine ⟨s, s', h1, h2, ?_⟩
    cases h : f s s' with
    | error e => rw [h] at h3; cases h3
    | ok w => rw [h] at h3; cases h3; rfl
  · rintro ⟨s, s', h1, h2, h3⟩
    exact ⟨s, h1, s', h2, by rw [h3]; rfl⟩

theorem triples_coded {permuted : Bool} {a : Items} (hd : IsDict a) {l m n : Name}
    (h : (l, m, n) ∈ triples permuted a) : (∃ s, Coded a l m s) ∧ ∃ s, Coded a l n s := by
  rw [mem_triples permuted a hd] at h
  rcases h with h | ⟨_, h⟩
  · exact before_coded h
  · exact (before_coded h).symm

/-- The comparison succeeds if the metric does, on all pairs. -/
theorem pairwise_defined (o : ClassOrder Name) (f : Seg → Seg → Py R) (permuted : Bool) {a : Items}
    (hd : IsDict a) :
    (∃ out, computePairwiseValues o f permuted a none = .ok out) ↔
      ∀ t ∈ triples permuted a, (tripleVal f a t).isSome := by
  constructor
  · rintro ⟨out, h⟩ ⟨l, m, n⟩ ht
    obtain ⟨⟨s, hs⟩, s', hs'⟩ := triples_coded hd ht
    obtain ⟨v, hv⟩ := pairwise_one_ok o f permuted a h hs hs' ((mem_triples permuted a hd l m n).1 ht)
    rw [Option.isSome_iff_exists]
    exact ⟨v, tripleVal_some.2 ⟨s, s', hs, hs', hv⟩⟩
  · intro h
    cases hc : computePairwiseValues o f permuted a none with
    | ok out => exact ⟨out, rfl⟩
    | error e =>
      obtain ⟨l, m, n, sm, sn, h1, h2, h3, h4⟩ := pairwise_one_error o f permuted a hc
      have := h _ ((mem_triples permuted a hd l m n).2 h3)
      rw [Option.isSome_iff_exists] at this
      obtain ⟨v, hv⟩ := this
      obtain ⟨sm', sn', g1, g2, g3⟩ := tripleVal_some.1 hv
      rw [coded_unique g1 h1, coded_unique g2 h2, h4] at g3
      cases g3

/-- The entries, as a list over the pairs. -/
theorem pairwise_perm (o : ClassOrder Name) (f : Seg → Seg → Py R) (permuted : Bool) {a : Items}
    (hd : IsDict a) (hc : NoCommas a) {out : List (Name × R)}
    (h : computePairwiseValues o f permuted a none = .ok out) :
    (out.map (fun e => (e.1, some e.2))).Perm
      ((triples permuted a).map (fun t => (keyOf t.1 t.2.1 t.2.2, tripleVal f a t))) := by
  obtain ⟨h1, h2⟩ := pairwise_one o f permuted a hc h
  have hinj : ∀ t ∈ triples permuted a, ∀ t' ∈ triples permuted a,
      keyOf t.1 t.2.1 t.2.2 = keyOf t'.1 t'.2.1 t'.2.2 → t = t' := by
    rintro ⟨l, m, n⟩ ht ⟨l', m', n'⟩ ht' e
    obtain ⟨⟨s1, q1⟩, s2, q2⟩ := triples_coded hd ht
    obtain ⟨⟨s3, q3⟩, s4, q4⟩ := triples_coded hd ht'
    obtain ⟨rfl, rfl, rfl⟩ := keyOf_inj (hc _ _ _ q1) (hc _ _ _ q3) (hc _ _ _ q2) (hc _ _ _ q4) e
    rfl
  have n1 : (out.map (fun e => (e.1, some e.2))).Nodup := by
    apply List.Nodup.of_map Prod.fst
    rw [List.map_map]
    exact h1
  have n2 : ((triples permuted a).map (fun t => (keyOf t.1 t.2.1 t.2.2, tripleVal f a t))).Nodup :=
    List.Nodup.map_on (fun t ht t' ht' e => hinj t ht t' ht' (Prod.mk.inj e).1) (nodup_triples permuted a hd)
  rw [List.perm_ext_iff_of_nodup n1 n2]
  rintro ⟨k, x⟩
  simp only [List.mem_map, Prod.mk.injEq]
  constructor
  · rintro ⟨⟨k', v⟩, hm, rfl, rfl⟩
    obtain ⟨l, m, n, sm, sn, c1, c2, hb, hk, hv⟩ := (h2 k' v).1 (dictGet_of_mem h1 hm)
    exact ⟨(l, m, n), (mem_triples permuted a hd l m n).2 hb, hk.symm,
      tripleVal_some.2 ⟨sm, sn, c1, c2, hv⟩⟩
  · rintro ⟨⟨l, m, n⟩, ht, rfl, rfl⟩
    have := (pairwise_defined o f permuted hd).1 ⟨out, h⟩ _ ht
    rw [Option.isSome_iff_exists] at this
    obtain ⟨v, hv⟩ := this
    obtain ⟨sm, sn, c1, c2, hv'⟩ := tripleVal_some.1 hv
    refine ⟨(keyOf l m n, v), dictGet_mem ((h2 _ v).2 ⟨l, m, n, sm, sn, c1, c2,
      (mem_triples permuted a hd l m n).1 ht, rfl, hv'⟩), rfl, hv.symm⟩

/-! ## Rearranging -/

theorem forall₂_keys {a b : Items}
    (h : List.Forall₂ (fun e e' => e.1 = e'.1 ∧ e.2.Perm e'.2) a b) : a.map Prod.fst = b.map Prod.fst := by
  induction h with
  | nil => rfl
  | cons h _ ih => rw [List.map_cons, List.map_cons, ih, h.1]

theorem rearranged_dict {a b : Items} (h : Rearranged a b) (hd : IsDict a) : IsDict b := by
  obtain ⟨mid, h1, h2⟩ := h
  have hm : IsDict mid := by
    refine ⟨(h1.map Prod.fst).nodup_iff.1 hd.1, fun e he => hd.2 e (h1.mem_iff.2 he)⟩
  refine ⟨by rw [← forall₂_keys h2]; exact hm.1, ?_⟩
  have h3 := hm.2
  clear hm h1
  induction h2 with
  | nil => intro e he; cases he
  | cons h _ ih =>
    rw [List.forall_mem_cons] at h3 ⊢
    exact ⟨(h.2.map Prod.fst).nodup_iff.1 h3.1, ih h3.2⟩

theorem rearranged_coded {a b : Items} (h : Rearranged a b) (hd : IsDict a) (l m : Name) :
    codingOf b l m = codingOf a l m := by
  obtain ⟨mid, h1, h2⟩ := h
  have hm : IsDict mid := ⟨(h1.map Prod.fst).nodup_iff.1 hd.1, fun e he => hd.2 e (h1.mem_iff.2 he)⟩
  unfold codingOf
  rw [dictGet_perm h1 hd.1 l]
  clear h1
  induction h2 with
  | nil => rfl
  | @cons e e' x y h _ ih =>
    obtain ⟨k, c⟩ := e
    obtain ⟨k', c'⟩ := e'
    obtain ⟨h3, h4⟩ := h
    simp only at h3 h4
    subst h3
    simp only [dictGet]
    by_cases hk : k = l
    · rw [if_pos hk, if_pos hk, Option.bind_some, Option.bind_some]
      exact (dictGet_perm h4 (hm.2 (k, c) (by simp)) m).symm
    · rw [if_neg hk, if_neg hk]
      exact ih ⟨(List.nodup_cons.1 hm.1).2, fun e he => hm.2 e (by simp [he])⟩

theorem rearranged_coded_iff {a b : Items} (h : Rearranged a b) (hd : IsDict a) (l m : Name) (s : Seg) :
    Coded b l m s ↔ Coded a l m s := by
  rw [← codingOf_some, ← codingOf_some, rearranged_coded h hd]

theorem rearranged_commas {a b : Items} (h : Rearranged a b) (hd : IsDict a) (hc : NoCommas a) :
    NoCommas b := fun l m s hs => hc l m s ((rearranged_coded_iff h hd l m s).1 hs)

theorem rearranged_val {a b : Items} (h : Rearranged a b) (hd : IsDict a) (f : Seg → Seg → Py R) :
    tripleVal f b = tripleVal f a := by
  funext t
  unfold tripleVal
  rw [rearranged_coded h hd, rearranged_coded h hd]

theorem before_or_iff {a : Items} (hd : IsDict a) (l m n : Name) :
    (Before a l m n ∨ Before a l n m) ↔ m ≠ n ∧ (∃ s, Coded a l m s) ∧ ∃ s, Coded a l n s := by
  constructor
  · intro h
    have hne : ∀ m n, Before a l m n → m ≠ n := by
      rintro m n ⟨c, h1, h2⟩ rfl
      have := h2.nodup (hd.2 _ (dictGet_mem h1))
      simp at this
    rcases h with h | h
    · exact ⟨hne _ _ h, before_coded h⟩
    · exact ⟨(hne _ _ h).symm, (before_coded h).symm⟩
  · rintro ⟨hne, ⟨s, c, h1, h2⟩, s', c', h1', h2'⟩
    rw [h1] at h1'
    cases h1'
    have hm : m ∈ c.map Prod.fst := mem_dictKeys.2 ⟨s, h2⟩
    have hn : n ∈ c.map Prod.fst := mem_dictKeys.2 ⟨s', h2'⟩
    have : ∀ ks : List Name, m ∈ ks → n ∈ ks → [m, n].Sublist ks ∨ [n, m].Sublist ks := by
      intro ks
      induction ks with
      | nil => intro h; cases h
      | cons k ks ih =>
        intro h h'
        rcases List.mem_cons.1 h with rfl | hm'
        · rcases List.mem_cons.1 h' with rfl | h'
          · exact absurd rfl hne
          · exact .inl (.cons_cons _ (List.singleton_sublist.2 h'))
        · rcases List.mem_cons.1 h' with rfl | h'
          · exact .inr (.cons_cons _ (List.singleton_sublist.2 hm'))
          · rcases ih hm' h' with h | h
            · exact .inl (.cons _ h)
            · exact .inr (.cons _ h)
    rcases this _ hm hn with h | h
    · exact .inl ⟨c, h1, h⟩
    · exact .inr ⟨c, h1, h⟩

theorem rearranged_triples {a b : Items} (h : Rearranged a b) (hd : IsDict a) :
    (triples true a).Perm (triples true b) := by
  have hb := rearranged_dict h hd
  rw [List.perm_ext_iff_of_nodup (nodup_triples true a hd) (nodup_triples true b hb)]
  rintro ⟨l, m, n⟩
  rw [mem_triples true a hd, mem_triples true b hb]
  simp only [true_and]
  rw [before_or_iff hd, before_or_iff hb]
  simp only [rearranged_coded_iff h hd]

theorem rearranged_symmetric {β : Type _} {a b : Items} (h : Rearranged a b) (hd : IsDict a)
    (φ : Name × Name × Name → β)
    (hs : ∀ l m n, (∃ s, Coded a l m s) → (∃ s, Coded a l n s) → φ (l, m, n) = φ (l, n, m)) :
    ((triples false a).map φ).Perm ((triples false b).map φ) := by
  obtain ⟨mid, h1, h2⟩ := h
  have hm : IsDict mid := ⟨(h1.map Prod.fst).nodup_iff.1 hd.1, fun e he => hd.2 e (h1.mem_iff.2 he)⟩
  have hs' : ∀ e ∈ mid, ∀ m ∈ dictKeys e.2, ∀ n ∈ dictKeys e.2, φ (e.1, m, n) = φ (e.1, n, m) := by
    intro e he m hm' n hn'
    obtain ⟨s, h3⟩ := mem_dictKeys.1 hm'
    obtain ⟨s', h4⟩ := mem_dictKeys.1 hn'
    have h5 : dictGet a e.1 = some e.2 := dictGet_of_mem hd.1 (h1.mem_iff.2 he)
    exact hs _ _ _ ⟨s, e.2, h5, h3⟩ ⟨s', e.2, h5, h4⟩
  have e : ∀ x : Items, (triples false x).map φ = x.flatMap (fun e =>
      (combinations2 (dictKeys e.2)).map (fun p => φ (e.1, p.1, p.2))) := by
    intro x
    unfold triples
    rw [List.map_flatMap]
    simp [Function.comp_def]
  rw [e, e]
  refine (h1.flatMap_right _).trans ?_
  clear h1
  induction h2 with
  | nil => exact .refl _
  | @cons x y xs ys h _ ih =>
    rw [List.flatMap_cons, List.flatMap_cons]
    refine List.Perm.append ?_ (ih ⟨(List.nodup_cons.1 hm.1).2, fun e he => hm.2 e (by simp [he])⟩
      (fun e he => hs' e (by simp [he])))
    have := combos_perm (fun m n => φ (x.1, m, n)) (h.2.map Prod.fst) (hs' x (by simp))
    rw [h.1] at this ⊢
    exact this

/-! ## Summaries -/

theorem summarize_perm {l l' : List PyNum} (h : l.Perm l') (hf : ∀ x ∈ l, x.NoFlt) :
    summarize l = summarize l' := by
  rcases eq_or_ne l [] with rfl | hne
  · rw [List.nil_perm.1 h]
  · have hne' : l' ≠ [] := fun e => hne (List.perm_nil.1 (e ▸ h))
    have hf' : ∀ x ∈ l', x.NoFlt := fun x hx => hf x (h.mem_iff.2 hx)
    unfold summarize
    rw [pyMean_dec l hf hne, pyMean_dec l' hf' hne', pyVar_dec l hf hne, pyVar_dec l' hf' hne']
    have e1 : meanOf (l.map PyNum.val) = meanOf (l'.map PyNum.val) := by
      rw [meanOf, meanOf, (h.map PyNum.val).sum_eq, (h.map PyNum.val).length_eq]
    have e2 : varOf (l.map PyNum.val) = varOf (l'.map PyNum.val) := by
      unfold varOf
      rw [e1]
      unfold meanOf
      rw [((h.map PyNum.val).map _).sum_eq, ((h.map PyNum.val).map _).length_eq]
    rw [e1, e2, h.length_eq]

end SegEval
