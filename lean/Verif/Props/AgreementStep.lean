import Verif.Lemmas.AgreementStep
import Verif.Props.OneBoundary
import Verif.Props.AgreementS

/-!
# C118: what changed boundaries can change in actual agreement
-/

namespace SegEval.Props

open SegEval Spec

theorem _root_.SegEval.Spec.CodedAs.valid {fmt : BoundaryFormat} {items : Items} {S : Name → Name → BString}
    (h : CodedAs fmt items S) : AllValid fmt items := fun l m s hc => ⟨S l m, h l m s hc⟩

section
variable {o : ClassOrder Name} {rt : Runtime} {nT : ℤ} {kw : BoundaryFormat} {data : AgrData}
  {S : Name → Name → BString}

/-- The two codings of a pair of coders that was compared. -/
theorem pair_strings (hd : IsDict data.items) (hS : CodedAs (agrFormat kw data) data.items S)
    {x : PyNum} (h : actualAgreement o (compareB rt nT .default) kw data = .ok x) {l m n : Name}
    (hl : l ∈ (data.items.map Prod.fst).toFinset) (hm : m ∈ getCoders data) (hn : n ∈ getCoders data)
    (hne : m ≠ n) (hf : agrFormat kw data ≠ .sets) : (S l m).length = (S l n).length ∧
      (∃ t, UsesType (S l m) (S l n) t) ∧ Only 1 (S l m) ∧ Only 1 (S l n) := by
  obtain ⟨hok, -⟩ := (actual_ok x).1 h
  obtain ⟨⟨l', cs⟩, hit, rfl⟩ := List.mem_map.1 (List.mem_toFinset.1 hl)
  have key : ∀ m n, (m, n) ∈ combinations2 (o.order [] (getCoders data)) →
      (S l' m).length = (S l' n).length ∧ (∃ t, UsesType (S l' m) (S l' n) t) ∧ Only 1 (S l' m) ∧
        Only 1 (S l' n) := by
    intro m n hp
    obtain ⟨sa, sb, a1, a2, a3, -⟩ := jobRow_parts (hok ((m, n), (l', cs)) (mem_jobs.2 ⟨hp, hit⟩))
    have hg := dictGet_of_mem hd.1 hit
    obtain ⟨a, b, N, D, ha, hb, hab, -, -, -, -, -, -, hpos⟩ := compareB_default a3
    have da := hS _ _ _ ⟨cs, hg, a1⟩
    have db := hS _ _ _ ⟨cs, hg, a2⟩
    refine ⟨?_, ?_, denotes_types da hf, denotes_types db hf⟩ <;>
      rw [denotes_unique da ha, denotes_unique db hb]
    · exact hab
    have : 0 < (identifyTypes a b).card := Nat.pos_of_mul_pos_left hpos
    obtain ⟨t, ht⟩ := Finset.card_pos.1 this
    exact ⟨t, mem_identifyTypes.1 ht⟩
  rcases pair_order ((o.mem _ _ _).2 hm) ((o.mem _ _ _).2 hn) hne with hp | hp
  · exact key m n hp
  · obtain ⟨h1, ⟨t, p, h2⟩, h3, h4⟩ := key n m hp
    exact ⟨h1.symm, ⟨t, p, h2.symm⟩, h4, h3⟩

/-- There was a pair to compare. -/
theorem some_pair {x : PyNum} (h : actualAgreement o (compareB rt nT .default) kw data = .ok x) :
    2 ≤ (getCoders data).card ∧ data.items ≠ [] := by
  obtain ⟨-, h2⟩ := (actual_ok x).1 h
  have := denSum_nil (actualOfParts_ok (rowsNoFlt_default rt nT _ _) h2).1
  have := jobs_ne_nil.1 this
  rwa [order_length] at this

theorem pooled_pairs (hd : IsDict data.items) (N D : Name → Name → Name → ℚ) :
    pooled data.items (getCoders data) N D =
      overPairs (getCoders data) (data.items.map Prod.fst).toFinset N /
        overPairs (getCoders data) (data.items.map Prod.fst).toFinset D := by
  have key : ∀ G : Name → Name → Name → ℚ, ∀ m n, (data.items.map (fun it => G it.1 m n)).sum =
      ∑ l ∈ (data.items.map Prod.fst).toFinset, G l m n := by
    intro G m n
    rw [List.sum_toFinset _ hd.1, List.map_map]; rfl
  simp only [pooled, overPairs, key]

theorem scores_plain (hf : agrFormat kw data ≠ .sets) (hS : CodedAs (agrFormat kw data) data.items S) :
    Scores (compareB rt nT .default (agrFormat kw data)) data.items
      (fun l m n => plainCredit rt nT (S l m) (S l n)) (fun l m n => plainSize rt nT (S l m) (S l n)) := by
  intro label m n sm sn num den cm cn hcmp
  have dm := hS _ _ _ cm
  have dn := hS _ _ _ cn
  unfold compareB at hcmp
  by_cases ht : (sm.truthy && sn.truthy) = true
  · rw [if_pos ht] at hcmp
    cases hb : boundarySimilarity rt ⟨agrFormat kw data, false, true, nT, .default⟩ sm sn with
    | error e => rw [hb] at hcmp; cases hcmp
    | ok v =>
      obtain ⟨st, hst⟩ := boundarySim_stats hb
      simp only at hst
      obtain ⟨sa, sb, c, h1, hl, he, hm, hc, c0, c1, c2, c3, hD, hp, hty, hpos⟩ := default_facts hst
      rw [toBStrings_denotes dm dn] at h1
      cases h1
      have heq := boundarySim_eq (kw := ⟨agrFormat kw data, false, true, nT, .default⟩) hst hc hD
      have heq' := boundarySim_eq (kw := ⟨agrFormat kw data, false, false, nT, .default⟩) hst hc hD
      rw [hb] at heq
      simp only [if_true, Bool.false_eq_true, if_false] at heq heq'
      cases heq
      rw [hb] at hcmp
      simp only [Except.ok.injEq, Prod.mk.injEq] at hcmp
      obtain ⟨rfl, rfl⟩ := hcmp
      obtain ⟨-, hu, hbed, hpos', hval⟩ := boundary_value
        (kw := ⟨agrFormat kw data, false, false, nT, .default⟩) rfl rfl rfl dm dn ⟨_, heq', rfl⟩
      obtain ⟨mx, mn, hex⟩ := extremes_exist hu
      have hv := hval mx mn hex
      rw [credit_plain _ _ _ _ (no_substitutions hl
        (oneSided_of_oneType (denotes_types dm hf) (denotes_types dn hf)) hbed)] at hv
      simp only [PyNum.val] at hv
      have hsz : plainSize rt nT (S label m) (S label n) =
          ((editCount st.edits + st.matches'.length : ℕ) : ℚ) := by
        rw [plainSize, he, hm]; push_cast; rfl
      have hne : ((editCount st.edits + st.matches'.length : ℕ) : ℚ) ≠ 0 := by exact_mod_cast hD.ne'
      refine ⟨?_, by simp only [hsz, PyNum.val]; push_cast; rfl⟩
      simp only [PyNum.val]
      rw [div_eq_iff hne] at hv
      rw [hv, plainCredit, ← hsz, plainSize, div_mul_cancel₀]
      rw [← plainSize, hsz]; exact hne
  · rw [if_neg ht] at hcmp; cases hcmp

/-- Of two codings in a format with one type, the parts of segmentation similarity. -/
theorem scores_positions (hf : agrFormat kw data ≠ .sets)
    (hS : CodedAs (agrFormat kw data) data.items S) :
    Scores (compareS rt nT .default (agrFormat kw data)) data.items
      (fun l m n => (S l n).length - plainCost rt nT (S l m) (S l n)) (fun l _ n => (S l n).length) := by
  intro label m n sm sn num den cm cn hcmp
  have dm := hS _ _ _ cm
  have dn := hS _ _ _ cn
  unfold compareS at hcmp
  by_cases htr : (sm.truthy && sn.truthy) = true
  · rw [if_pos htr] at hcmp
    cases hst : boundaryStatistics rt (agrFormat kw data) nT .default sm sn with
    | error e => simp only [segmentationSimilarity, hst] at hcmp; cases hcmp
    | ok st =>
      obtain ⟨a, b, c, g1, hl, he, hm, hc, c0, c1, c2, c3, hD, hp, hty, hpos⟩ := default_facts hst
      rw [toBStrings_denotes dm dn] at g1
      cases g1
      have e1 := segmentationSim_eq (kw := ⟨agrFormat kw data, false, true, nT, .default⟩) hst hc hpos
      have e2 := segmentationSim_eq (kw := ⟨agrFormat kw data, false, false, nT, .default⟩) hst hc hpos
      simp only [if_true, Bool.false_eq_true, if_false] at e1 e2
      rw [e1] at hcmp
      cases hcmp
      obtain ⟨-, hu, hbed, hval⟩ := segmentation_value
        (kw := ⟨agrFormat kw data, false, false, nT, .default⟩) rfl rfl rfl dm dn ⟨_, e2, rfl⟩
      obtain ⟨mx, mn, hex⟩ := extremes_exist hu
      have hv := hval mx mn hex
      have h1 := one_type_card (denotes_types dm hf) (denotes_types dn hf) hu
      rw [cost_plain _ _ _ (no_substitutions hl
        (oneSided_of_oneType (denotes_types dm hf) (denotes_types dn hf)) hbed), h1, hl] at hv
      rw [hp, hty, h1] at hv hpos ⊢
      simp only [PyNum.val, Nat.cast_one, mul_one, Int.cast_natCast] at hv hpos ⊢
      have hne : ((S label n).length : ℚ) ≠ 0 := by exact_mod_cast hpos.ne'
      refine ⟨?_, trivial⟩
      rw [plainCost]
      field_simp at hv
      linarith
  · rw [if_neg htr] at hcmp; cases hcmp

theorem actual_positions (hd : IsDict data.items) (hf : agrFormat kw data ≠ .sets)
    (hS : CodedAs (agrFormat kw data) data.items S) {x : PyNum}
    (h : actualAgreement o (compareS rt nT .default) kw data = .ok x) :
    x.val = overPairs (getCoders data) (data.items.map Prod.fst).toFinset
        (fun l m n => (S l n).length - plainCost rt nT (S l m) (S l n)) /
      overPairs (getCoders data) (data.items.map Prod.fst).toFinset (fun l _ n => (S l n).length) := by
  have hs : TypesShared rt kw data := .inl hf
  have hb := rowBoth_all (o := o) (nT := nT) hd hS.valid hs
  obtain ⟨h1, h2⟩ := (actual_ok x).1 h
  rw [(actualOfParts_ok (rowsNoFlt_segmentation hb) h2).2, ← pooled_pairs hd]
  exact pooled_form hd (scores_positions hf hS) h1
    (rowsSym_compareS ⟨rfl, Or.inr rfl, Or.inr rfl⟩ hd hS.valid hs.all hs.all)

end

theorem one_small (rt : Runtime) : smallInt 1 = true ∨ ∀ site, rt.sameObj site 1 = true :=
  .inl (by decide)

theorem uses_count {a b : BString} (h : ∃ t, UsesType a b t) :
    0 < boundaryCount a + boundaryCount b := by
  obtain ⟨u, q, hq⟩ := h
  have : 0 < (boundaries a).card ∨ 0 < (boundaries b).card := by
    rw [Finset.card_pos, Finset.card_pos]
    exact hq.imp (fun h => ⟨(q, u), mem_boundaries.2 h⟩) fun h => ⟨(q, u), mem_boundaries.2 h⟩
  rw [boundaries_card, boundaries_card] at this
  omega

/-- C118: changing `d` boundaries in total over all codings of a data set changes actual agreement by at
most twice `d` over the number of boundaries of all codings, however many coders and items there are. -/
theorem C118_boundary (o o' : ClassOrder Name) (rt : Runtime) (nT : ℤ) (kw kw' : BoundaryFormat)
    (data data' : AgrData) (hd : IsDict data.items) (hd' : IsDict data'.items)
    (hf : agrFormat kw data ≠ .sets) (hf' : agrFormat kw' data' ≠ .sets)
    (hL : (data'.items.map Prod.fst).toFinset = (data.items.map Prod.fst).toFinset)
    (hc : getCoders data' = getCoders data) (S S' : Name → Name → BString)
    (hS : CodedAs (agrFormat kw data) data.items S)
    (hS' : CodedAs (agrFormat kw' data') data'.items S')
    (hlen : ∀ l m, (S' l m).length = (S l m).length) (x x' : PyNum)
    (h : actualAgreement o (compareB rt nT .default) kw data = .ok x)
    (h' : actualAgreement o' (compareB rt nT .default) kw' data' = .ok x') :
    |x.val - x'.val| ≤
      2 * overCodings data.items (getCoders data) (fun l m => changed (S l m) (S' l m)) /
        overCodings data.items (getCoders data) (fun l m => boundaryCount (S l m)) := by
  have P := fun {l m n} => pair_strings (l := l) (m := m) (n := n) hd hS h
  have P' := fun {l m n} => pair_strings (l := l) (m := m) (n := n) hd' hS' h'
  rw [hL, hc] at P'
  rw [C63_actual hd hS.valid (.inl hf) (scores_plain hf hS) h, pooled_pairs hd,
    C63_actual hd' hS'.valid (.inl hf') (scores_plain hf' hS') h', pooled_pairs hd', hL, hc]
  obtain ⟨h2, hi⟩ := some_pair h
  have hne : ((data.items.map Prod.fst).toFinset).Nonempty := by
    rw [Finset.nonempty_iff_ne_empty, ne_eq, List.toFinset_eq_empty_iff, List.map_eq_nil_iff]
    exact hi
  set C := getCoders data
  set L := (data.items.map Prod.fst).toFinset
  have size : ∀ {T : Name → Name → BString}, (∀ l ∈ L, ∀ m ∈ C, ∀ n ∈ C, m ≠ n →
      (T l m).length = (T l n).length ∧ (∃ t, UsesType (T l m) (T l n) t) ∧ Only 1 (T l m) ∧
        Only 1 (T l n)) → 0 < overPairs C L (fun l m n => plainSize rt nT (T l m) (T l n)) := by
    intro T hT
    refine overPairs_pos h2 hne fun l hl m hm n hn hmn => ?_
    obtain ⟨g1, g2, g3, g4⟩ := hT l hl m hm n hn hmn
    obtain ⟨-, -, r3, r4⟩ := only_range (rt := rt) (nT := nT) (one_small rt) g1 g3 g4
    have := uses_count g2
    have : (0 : ℚ) < boundaryCount (T l m) + boundaryCount (T l n) := by exact_mod_cast this
    linarith
  have hpos : 0 < ∑ l ∈ L, ∑ m ∈ C, (boundaryCount (S l m) : ℚ) := by
    obtain ⟨l, hl⟩ := hne
    obtain ⟨m, hm, n, hn, hmn⟩ := Finset.one_lt_card.1 h2
    have := uses_count (P hl hm hn hmn hf).2.1
    have e : ∃ k ∈ C, 0 < boundaryCount (S l k) := by
      rcases Nat.eq_zero_or_pos (boundaryCount (S l m)) with h0 | h0
      · exact ⟨n, hn, by omega⟩
      · exact ⟨m, hm, h0⟩
    obtain ⟨k, hk, hk0⟩ := e
    refine Finset.sum_pos' (fun _ _ => Finset.sum_nonneg fun _ _ => Nat.cast_nonneg _)
      ⟨l, hl, Finset.sum_pos' (fun _ _ => Nat.cast_nonneg _) ⟨k, hk, by exact_mod_cast hk0⟩⟩
  have main := pooled_close (C := C) (L := L) h2
    (N := fun l m n => plainCredit rt nT (S l m) (S l n))
    (D := fun l m n => plainSize rt nT (S l m) (S l n))
    (N' := fun l m n => plainCredit rt nT (S' l m) (S' l n))
    (D' := fun l m n => plainSize rt nT (S' l m) (S' l n))
    (β := fun l m => (boundaryCount (S l m) : ℚ)) (δ := fun l m => (changed (S l m) (S' l m) : ℚ))
    (fun l hl m hm n hn hmn => by
      obtain ⟨g1, -, g3, g4⟩ := P hl hm hn hmn hf
      obtain ⟨-, -, k3, k4⟩ := P' hl hm hn hmn hf'
      exact (only_parts (one_small rt) g1 (hlen _ _) (hlen _ _) g3 k3 g4 k4).1)
    (fun l hl m hm n hn hmn => by
      obtain ⟨g1, -, g3, g4⟩ := P hl hm hn hmn hf
      obtain ⟨-, -, k3, k4⟩ := P' hl hm hn hmn hf'
      simp only [plain_sum]
      exact (only_parts (one_small rt) g1 (hlen _ _) (hlen _ _) g3 k3 g4 k4).2)
    (fun l hl m hm n hn hmn => by
      obtain ⟨k1, -, k3, k4⟩ := P' hl hm hn hmn hf'
      exact (only_range (one_small rt) k1 k3 k4).1)
    (fun l hl m hm n hn hmn => by
      obtain ⟨k1, -, k3, k4⟩ := P' hl hm hn hmn hf'
      have := (only_range (rt := rt) (nT := nT) (one_small rt) k1 k3 k4).2.1
      rw [← plain_sum] at this
      linarith)
    (fun l hl m hm n hn hmn => by
      obtain ⟨g1, -, g3, g4⟩ := P hl hm hn hmn hf
      obtain ⟨-, -, r3, r4⟩ := only_range (rt := rt) (nT := nT) (one_small rt) g1 g3 g4
      linarith)
    (size fun l hl m hm n hn hmn => P hl hm hn hmn hf)
    (size fun l hl m hm n hn hmn => P' hl hm hn hmn hf') hpos
  simp only [overCodings]
  push_cast
  exact main

/-- C118: and measured with segmentation similarity, by at most twice `d` over the number of potential
boundaries of all codings. -/
theorem C118_segmentation (o o' : ClassOrder Name) (rt : Runtime) (nT : ℤ) (kw kw' : BoundaryFormat)
    (data data' : AgrData) (hd : IsDict data.items) (hd' : IsDict data'.items)
    (hf : agrFormat kw data ≠ .sets) (hf' : agrFormat kw' data' ≠ .sets)
    (hL : (data'.items.map Prod.fst).toFinset = (data.items.map Prod.fst).toFinset)
    (hc : getCoders data' = getCoders data) (S S' : Name → Name → BString)
    (hS : CodedAs (agrFormat kw data) data.items S)
    (hS' : CodedAs (agrFormat kw' data') data'.items S')
    (hlen : ∀ l m, (S' l m).length = (S l m).length) (x x' : PyNum)
    (h : actualAgreement o (compareS rt nT .default) kw data = .ok x)
    (h' : actualAgreement o' (compareS rt nT .default) kw' data' = .ok x') :
    |x.val - x'.val| ≤
      2 * overCodings data.items (getCoders data) (fun l m => changed (S l m) (S' l m)) /
        overCodings data.items (getCoders data) (fun l m => (S l m).length) := by
  obtain ⟨y, hy⟩ := (C96_actual hd hS.valid (.inl hf)).1.1 ⟨x, h⟩
  obtain ⟨y', hy'⟩ := (C96_actual hd' hS'.valid (.inl hf')).1.1 ⟨x', h'⟩
  have P := fun {l m n} => pair_strings (l := l) (m := m) (n := n) hd hS hy
  have P' := fun {l m n} => pair_strings (l := l) (m := m) (n := n) hd' hS' hy'
  rw [hL, hc] at P'
  rw [actual_positions hd hf hS h, actual_positions hd' hf' hS' h', hL, hc]
  obtain ⟨h2, hi⟩ := some_pair hy
  have hne : ((data.items.map Prod.fst).toFinset).Nonempty := by
    rw [Finset.nonempty_iff_ne_empty, ne_eq, List.toFinset_eq_empty_iff, List.map_eq_nil_iff]
    exact hi
  set C := getCoders data
  set L := (data.items.map Prod.fst).toFinset
  have len_pos : ∀ l ∈ L, ∀ m ∈ C, ∀ n ∈ C, m ≠ n → (0 : ℚ) < (S l n).length := by
    intro l hl m hm n hn hmn
    obtain ⟨g1, ⟨t, p, g2⟩, -⟩ := P hl hm hn hmn hf
    have : p < (S l n).length := g2.elim (fun g => g1 ▸ typesAt_lt g) fun g => typesAt_lt g
    exact_mod_cast (Nat.zero_le p).trans_lt this
  have hpos : 0 < ∑ l ∈ L, ∑ m ∈ C, ((S l m).length : ℚ) := by
    obtain ⟨l, hl⟩ := hne
    obtain ⟨m, hm, n, hn, hmn⟩ := Finset.one_lt_card.1 h2
    exact Finset.sum_pos' (fun _ _ => Finset.sum_nonneg fun _ _ => Nat.cast_nonneg _)
      ⟨l, hl, Finset.sum_pos' (fun _ _ => Nat.cast_nonneg _) ⟨n, hn, len_pos l hl m hm n hn hmn⟩⟩
  have main := pooled_close (C := C) (L := L) h2
    (N := fun l m n => (S l n).length - plainCost rt nT (S l m) (S l n))
    (D := fun l _ n => ((S l n).length : ℚ))
    (N' := fun l m n => (S' l n).length - plainCost rt nT (S' l m) (S' l n))
    (D' := fun l _ n => ((S' l n).length : ℚ))
    (β := fun l m => ((S l m).length : ℚ)) (δ := fun l m => (changed (S l m) (S' l m) : ℚ))
    (fun l hl m hm n hn hmn => by
      obtain ⟨g1, -, g3, g4⟩ := P hl hm hn hmn hf
      obtain ⟨-, -, k3, k4⟩ := P' hl hm hn hmn hf'
      rw [hlen l n, sub_sub_sub_cancel_left, abs_sub_comm]
      exact (only_parts (one_small rt) g1 (hlen _ _) (hlen _ _) g3 k3 g4 k4).2)
    (fun l hl m hm n hn hmn => by
      obtain ⟨g1, -, g3, g4⟩ := P hl hm hn hmn hf
      obtain ⟨-, -, k3, k4⟩ := P' hl hm hn hmn hf'
      simp only [sub_sub_cancel]
      exact (only_parts (one_small rt) g1 (hlen _ _) (hlen _ _) g3 k3 g4 k4).2)
    (fun l hl m hm n hn hmn => by
      obtain ⟨k1, -, k3, k4⟩ := P' hl hm hn hmn hf'
      exact sub_nonneg.2 (cost_le_length k1 k3 k4))
    (fun l hl m hm n hn hmn => by
      obtain ⟨k1, -, k3, k4⟩ := P' hl hm hn hmn hf'
      have := (only_range (rt := rt) (nT := nT) (one_small rt) k1 k3 k4).2.1
      linarith)
    (fun l hl m hm n hn hmn => by
      rw [(P hl hm hn hmn hf).1]
      linarith)
    (overPairs_pos h2 hne len_pos)
    (overPairs_pos h2 hne fun l hl m hm n hn hmn => by
      rw [hlen]; exact len_pos l hl m hm n hn hmn) hpos
  simp only [overCodings]
  push_cast
  exact main

/-- Three coders of one item, the third of whom codes it as `c`. -/
def exStep (c : List ℤ) : AgrData :=
  .dict [("x".toList, [("a".toList, mass [2, 2, 2, 2]), ("b".toList, mass [2, 2, 2, 2]),
    ("c".toList, mass c)])]

/-- The strings of `exStep`. -/
def exStrings (c : BString) (_ m : Name) : BString :=
  if m = "c".toList then c else [∅, {1}, ∅, {1}, ∅, {1}, ∅]

theorem exStep_coded {c : List ℤ} {s : BString} (h : Denotes .mass (mass c) s) :
    CodedAs .mass (exStep c).items (exStrings s) := by
  rintro l m seg ⟨cs, h1, h2⟩
  have h3 := dictGet_mem h1
  simp only [exStep, AgrData.items, List.mem_cons, List.not_mem_nil, or_false, Prod.mk.injEq] at h3
  obtain ⟨rfl, rfl⟩ := h3
  have h4 := dictGet_mem h2
  simp only [List.mem_cons, List.not_mem_nil, or_false, Prod.mk.injEq] at h4
  have hd := massSeg_denotes [2, 2, 2, 2] (by simp) (by decide) [∅, {1}, ∅, {1}, ∅, {1}, ∅]
    (by decide +kernel)
  rcases h4 with ⟨rfl, rfl⟩ | ⟨rfl, rfl⟩ | ⟨rfl, rfl⟩
  · exact hd
  · exact hd
  · exact h

/-- Both bounds are reached: three coders agree, and one of them then leaves out one of the nine
boundaries at 21 places. -/
example :
    CodedAs .mass (exStep [2, 2, 2, 2]).items (exStrings [∅, {1}, ∅, {1}, ∅, {1}, ∅]) ∧
    CodedAs .mass (exStep [2, 2, 4]).items (exStrings [∅, {1}, ∅, {1}, ∅, ∅, ∅]) ∧
    overCodings (exStep [2, 2, 2, 2]).items (getCoders (exStep [2, 2, 2, 2]))
      (fun l m => changed (exStrings [∅, {1}, ∅, {1}, ∅, {1}, ∅] l m)
        (exStrings [∅, {1}, ∅, {1}, ∅, ∅, ∅] l m)) = 1 ∧
    overCodings (exStep [2, 2, 2, 2]).items (getCoders (exStep [2, 2, 2, 2]))
      (fun l m => boundaryCount (exStrings [∅, {1}, ∅, {1}, ∅, {1}, ∅] l m)) = 9 ∧
    actualAgreement ascN (compareB .ascending 2 .default) .mass (exStep [2, 2, 2, 2]) = .ok (.dec 1) ∧
    actualAgreement ascN (compareB .ascending 2 .default) .mass (exStep [2, 2, 4]) =
      .ok (.dec (7 / 9)) ∧
    actualAgreement ascN (compareS .ascending 2 .default) .mass (exStep [2, 2, 2, 2]) = .ok (.dec 1) ∧
    actualAgreement ascN (compareS .ascending 2 .default) .mass (exStep [2, 2, 4]) =
      .ok (.dec (19 / 21)) :=
  ⟨exStep_coded (massSeg_denotes _ (by simp) (by decide) _ (by decide +kernel)),
    exStep_coded (massSeg_denotes _ (by simp) (by decide) _ (by decide +kernel)),
    by decide +kernel, by decide +kernel, by decide +kernel, by decide +kernel, by decide +kernel,
    by decide +kernel⟩

end SegEval.Props
