import Verif.Props.AgreementRange
import Verif.Props.WindowMetrics

/-!
# C77: what the mean pairwise value of a dataset says
-/

namespace SegEval.Props

open SegEval Spec

/-! ## Means of values between 0 and 1 -/

theorem mean_extreme (l : List ℚ) (hne : l ≠ []) (h : ∀ x ∈ l, 0 ≤ x ∧ x ≤ 1) :
    (meanOf l = 1 ↔ ∀ x ∈ l, x = 1) ∧ (meanOf l = 0 ↔ ∀ x ∈ l, x = 0) := by
  have hpos : (0 : ℚ) < l.length := by exact_mod_cast List.length_pos_iff.2 hne
  have h1 := sum_le_eq l (fun x => x) (fun _ => 1) (fun x hx => (h x hx).2)
  have h0 := sum_le_eq l (fun _ => 0) (fun x => x) (fun x hx => (h x hx).1)
  simp only [List.map_id'] at h1 h0
  have e1 : (l.map (fun _ => (1 : ℚ))).sum = l.length := by
    rw [List.map_const', List.sum_replicate, nsmul_eq_mul, mul_one]
  have e0 : (l.map (fun _ => (0 : ℚ))).sum = 0 := by
    rw [List.map_const', List.sum_replicate, nsmul_eq_mul, mul_zero]
  rw [e1] at h1
  rw [e0] at h0
  constructor
  · rw [meanOf, div_eq_one_iff_eq hpos.ne', h1.2]
  · rw [meanOf, div_eq_zero_iff, or_iff_left hpos.ne', eq_comm, h0.2]
    simp only [eq_comm]

theorem mean_sq_le (l : List ℚ) (hne : l ≠ []) (h : ∀ x ∈ l, 0 ≤ x ∧ x ≤ 1) :
    meanOf (l.map (fun x => x ^ 2)) ≤ meanOf l := by
  have hpos : (0 : ℚ) < l.length := by exact_mod_cast List.length_pos_iff.2 hne
  have h1 := (sum_le_eq l (fun x => x ^ 2) (fun x => x) (fun x hx => by
    have := h x hx; nlinarith)).1
  rw [meanOf, meanOf, List.length_map]
  simp only [List.map_id'] at h1
  exact div_le_div_of_nonneg_right h1 hpos.le

/-- The summary of values between 0 and 1. -/
theorem summary_unit (values : List PyNum) (hne : values ≠ []) (hf : ∀ x ∈ values, x.NoFlt)
    (hu : ∀ x ∈ values, 0 ≤ x.val ∧ x.val ≤ 1) :
    ∃ s, summarize values = .ok s ∧ s.count = values.length ∧ 0 ≤ s.mean ∧ s.mean ≤ 1 ∧
      0 ≤ s.var ∧ s.var ≤ 1 / 4 ∧ 0 ≤ s.std ∧ s.std ≤ 1 / 2 ∧
      (s.mean = 1 ↔ ∀ x ∈ values, x.val = 1) ∧ (s.mean = 0 ↔ ∀ x ∈ values, x.val = 0) := by
  obtain ⟨s, h1, h2, ⟨mean, var, h3, h4, h5, h6⟩, h7, h8, _, h10, h11, _⟩ := C45_summary values hne hf
  have hb := h7 0 1 hu
  have hu' : ∀ x ∈ values.map PyNum.val, 0 ≤ x ∧ x ≤ 1 := by
    intro x hx
    obtain ⟨y, hy, rfl⟩ := List.mem_map.1 hx
    exact hu y hy
  have hne' : values.map PyNum.val ≠ [] := by simpa using hne
  obtain ⟨m1, m0⟩ := mean_extreme _ hne' hu'
  have hsq := mean_sq_le _ hne' hu'
  rw [List.map_map, ← h5] at hsq
  have hv : var ≤ 1 / 4 := by
    have e : meanOf (values.map (fun x => x.val ^ 2)) ≤ mean := hsq
    nlinarith [sq_nonneg (mean - 1 / 2)]
  have hvr : s.var ≤ 1 / 4 := by
    rw [h4]
    have : ((var : ℚ) : ℝ) ≤ ((1 / 4 : ℚ) : ℝ) := by exact_mod_cast hv
    simpa using this
  refine ⟨s, h1, h2, by simpa using hb.1, by simpa using hb.2, h8, hvr, h10, ?_, ?_, ?_⟩
  · nlinarith
  · rw [h3, h5]
    have : ((meanOf (values.map PyNum.val) : ℚ) : ℝ) = 1 ↔ meanOf (values.map PyNum.val) = 1 := by
      exact_mod_cast Iff.rfl
    rw [this, m1]
    simp
  · rw [h3, h5]
    have : ((meanOf (values.map PyNum.val) : ℚ) : ℝ) = 0 ↔ meanOf (values.map PyNum.val) = 0 := by
      exact_mod_cast Iff.rfl
    rw [this, m0]
    simp

/-! ## Calls with a dataset -/

/-- What `summarize(metric(dataset))` says of a metric whose values lie between 0 and 1. -/
theorem dataset_summary {o : ClassOrder Name} {f : BoundaryFormat → Seg → Seg → Py MetricOut}
    {fmt : BoundaryFormat} {permuted : Bool} {d : Dataset}
    (hf : ∀ label m n a b v, Coded d.items label m a → Coded d.items label n b →
      f d.boundaryFormat a b = .ok (.num v) → v.NoFlt ∧ 0 ≤ v.val ∧ v.val ≤ 1) (hd : IsDict d.items)
    (hc : NoCommas d.items) {vals : List (Name × PyNum)} (hne : vals ≠ [])
    (h : fncMetric o f fmt permuted { args := [.dataset d] } =
      .ok (.pairs (vals.map (fun e => (e.1, .num e.2))))) :
    ∃ s, summarize (vals.map Prod.snd) = .ok s ∧
      s.count = (d.items.map (fun e => (if permuted then 2 else 1) * e.2.length.choose 2)).sum ∧
      0 ≤ s.mean ∧ s.mean ≤ 1 ∧ 0 ≤ s.var ∧ s.var ≤ 1 / 4 ∧ 0 ≤ s.std ∧ s.std ≤ 1 / 2 ∧
      (∀ label m n sm sn, Coded d.items label m sm → Coded d.items label n sn →
          (Before d.items label m n ∨ (permuted = true ∧ Before d.items label n m)) →
          ∃ x, Returns (f d.boundaryFormat sm sn) x) ∧
      ∀ c : ℚ, c = 0 ∨ c = 1 → (s.mean = c ↔ ∀ label m n sm sn, Coded d.items label m sm →
        Coded d.items label n sn →
          (Before d.items label m n ∨ (permuted = true ∧ Before d.items label n m)) →
          Returns (f d.boundaryFormat sm sn) c) := by
  have hitems : d.items ≠ [] := by
    rintro h0
    simp [fncMetric, parseArgs, ArgVal.wrapInt, ArgVal.truthy] at h
    rw [if_pos h0] at h
    cases h
  rw [C44_accepts o f fmt permuted _ (.dataset d) ⟨hitems, Or.inl rfl⟩] at h
  simp only [reply] at h
  cases hp : computePairwiseValues o (f d.boundaryFormat) permuted d.items none with
  | error e => rw [hp] at h; cases h
  | ok out =>
    rw [hp] at h
    simp only [Except.map, Except.ok.injEq, CallOut.pairs.injEq] at h
    subst h
    obtain ⟨_, hent⟩ := C41_entries o _ permuted d.items hc _ hp
    obtain ⟨hcomp, hlen⟩ := C41_complete o _ permuted d.items hd hc _ hp
    have hmem : ∀ e ∈ vals, ∃ label m n sm sn, Coded d.items label m sm ∧ Coded d.items label n sn ∧
        (Before d.items label m n ∨ (permuted = true ∧ Before d.items label n m)) ∧
        f d.boundaryFormat sm sn = .ok (.num e.2) := by
      intro e he
      obtain ⟨label, m, n, sm, sn, c1, c2, c3, _, c5⟩ :=
        (hent e.1 (.num e.2)).1 (List.mem_map.2 ⟨e, he, rfl⟩)
      exact ⟨label, m, n, sm, sn, c1, c2, c3, c5⟩
    obtain ⟨s, h1, h2, h3, h4, h5, h6, h7, h8, h9, h10⟩ := summary_unit (vals.map Prod.snd)
      (by simpa using hne) (by
        intro x hx
        obtain ⟨e, he, rfl⟩ := List.mem_map.1 hx
        obtain ⟨_, _, _, _, _, c1, c2, _, c5⟩ := hmem e he
        exact (hf _ _ _ _ _ _ c1 c2 c5).1) (by
        intro x hx
        obtain ⟨e, he, rfl⟩ := List.mem_map.1 hx
        obtain ⟨_, _, _, _, _, c1, c2, _, c5⟩ := hmem e he
        exact (hf _ _ _ _ _ _ c1 c2 c5).2)
    rw [List.length_map] at hlen
    refine ⟨s, h1, ?_, h3, h4, h5, h6, h7, h8, ?_, ?_⟩
    · rw [h2, List.length_map, hlen]
    · intro label m n sm sn c1 c2 c3
      obtain ⟨v, hv, hin⟩ := hcomp label m n sm sn c1 c2 c3
      obtain ⟨e, he, heq⟩ := List.mem_map.1 hin
      simp only [Prod.mk.injEq] at heq
      exact ⟨e.2.val, e.2, by rw [hv, ← heq.2], rfl⟩
    · have key : ∀ c : ℚ, (∀ x ∈ vals.map Prod.snd, x.val = c) ↔
          ∀ label m n sm sn, Coded d.items label m sm → Coded d.items label n sn →
          (Before d.items label m n ∨ (permuted = true ∧ Before d.items label n m)) →
          Returns (f d.boundaryFormat sm sn) c := by
        intro c
        constructor
        · intro hall label m n sm sn c1 c2 c3
          obtain ⟨v, hv, hin⟩ := hcomp label m n sm sn c1 c2 c3
          obtain ⟨e, he, heq⟩ := List.mem_map.1 hin
          simp only [Prod.mk.injEq] at heq
          exact ⟨e.2, by rw [hv, ← heq.2], hall _ (List.mem_map.2 ⟨e, he, rfl⟩)⟩
        · intro hall x hx
          obtain ⟨e, he, rfl⟩ := List.mem_map.1 hx
          obtain ⟨label, m, n, sm, sn, c1, c2, c3, c5⟩ := hmem e he
          obtain ⟨v, hv, rfl⟩ := hall label m n sm sn c1 c2 c3
          rw [c5] at hv
          cases hv
          rfl
      rintro c (rfl | rfl)
      · rw [Rat.cast_zero, h10, key]
      · rw [Rat.cast_one, h9, key]

/-- Two coders of one item come one before the other. -/
theorem before_or {items : Items} {label m n : Name} {sm sn : Seg} (hm : Coded items label m sm)
    (hn : Coded items label n sn) (hne : m ≠ n) :
    Before items label m n ∨ Before items label n m := by
  obtain ⟨cs, h1, h2⟩ := hm
  obtain ⟨cs', h1', h3⟩ := hn
  rw [h1, Option.some.injEq] at h1'
  subst h1'
  have m1 : m ∈ cs.map Prod.fst := List.mem_map.2 ⟨_, dictGet_mem h2, rfl⟩
  have m2 : n ∈ cs.map Prod.fst := List.mem_map.2 ⟨_, dictGet_mem h3, rfl⟩
  have : ∀ l : List Name, m ∈ l → n ∈ l → [m, n].Sublist l ∨ [n, m].Sublist l := by
    intro l
    induction l with
    | nil => intro h; simp at h
    | cons x xs ih =>
      intro h h'
      rw [List.mem_cons] at h h'
      rcases h with rfl | h
      · rcases h' with rfl | h'
        · exact absurd rfl hne
        · exact Or.inl (List.Sublist.cons_cons _ (List.singleton_sublist.2 h'))
      · rcases h' with rfl | h'
        · exact Or.inr (List.Sublist.cons_cons _ (List.singleton_sublist.2 h))
        · exact (ih h h').imp (List.Sublist.cons _) (List.Sublist.cons _)
  exact (this _ m1 m2).imp (fun h => ⟨cs, h1, h⟩) (fun h => ⟨cs, h1, h⟩)

/-- Coders agree completely iff any two agree, one before the other. -/
theorem complete_iff {fmt : BoundaryFormat} {items : Items} {permuted : Bool}
    {f : Seg → Seg → Py MetricOut} (hv : AllValid fmt items)
    (hone : ∀ a b sa sb x, Denotes fmt a sa → Denotes fmt b sb → Returns (f a b) x → (x = 1 ↔ sa = sb))
    (hret : ∀ label m n sm sn, Coded items label m sm → Coded items label n sn →
      (Before items label m n ∨ (permuted = true ∧ Before items label n m)) → ∃ x, Returns (f sm sn) x) :
    (∀ label m n sm sn, Coded items label m sm → Coded items label n sn →
      (Before items label m n ∨ (permuted = true ∧ Before items label n m)) → Returns (f sm sn) 1) ↔
      CompleteAgreement fmt items := by
  constructor
  · intro h label m n sm sn bm bn cm cn dm dn
    by_cases hmn : m = n
    · subst hmn
      obtain ⟨cs, h1, h2⟩ := cm
      obtain ⟨cs', h1', h3⟩ := cn
      rw [h1, Option.some.injEq] at h1'
      subst h1'
      rw [h2, Option.some.injEq] at h3
      subst h3
      exact denotes_unique dm (toBString_denotes dn)
    · rcases before_or cm cn hmn with hb | hb
      · exact (hone _ _ _ _ _ dm dn (h label m n sm sn cm cn (Or.inl hb))).1 rfl
      · exact ((hone _ _ _ _ _ dn dm (h label n m sn sm cn cm (Or.inl hb))).1 rfl).symm
  · intro h label m n sm sn cm cn hb
    obtain ⟨bm, dm⟩ := hv _ _ _ cm
    obtain ⟨bn, dn⟩ := hv _ _ _ cn
    obtain ⟨x, hx⟩ := hret label m n sm sn cm cn hb
    have := (hone _ _ _ _ _ dm dn hx).2 (h label m n sm sn bm bn cm cn dm dn)
    rw [← this]
    exact hx

/-- C77: `summarize(boundary_similarity(dataset))`: the mean lies between 0 and 1 and is 1 exactly if
the coders of every item agree; the deviation is at most 1/2; the count is the number of pairs. -/
theorem C77_boundary {o : ClassOrder Name} {rt : Runtime} {kw : SimKw} (hw : kw.weight = .default)
    (ho : kw.oneMinus = false) {permuted : Bool} {d : Dataset} (hd : IsDict d.items)
    (hc : NoCommas d.items) (hv : AllValid d.boundaryFormat d.items)
    {vals : List (Name × PyNum)} (hne : vals ≠ [])
    (h : fncMetric o (fun fmt => boundarySimilarity rt { kw with boundaryFormat := fmt })
      kw.boundaryFormat permuted { args := [.dataset d] } =
      .ok (.pairs (vals.map (fun e => (e.1, .num e.2))))) :
    ∃ s, summarize (vals.map Prod.snd) = .ok s ∧
      s.count = (d.items.map (fun e => (if permuted then 2 else 1) * e.2.length.choose 2)).sum ∧
      0 ≤ s.mean ∧ s.mean ≤ 1 ∧ s.var ≤ 1 / 4 ∧ s.std ≤ 1 / 2 ∧
      (s.mean = 1 ↔ CompleteAgreement d.boundaryFormat d.items) := by
  obtain ⟨s, h1, h2, h3, h4, h5, h6, h7, h8, h9, h10⟩ := dataset_summary (fun _ _ _ a b v _ _ hv => by
    refine ⟨?_, C17_range rt { kw with boundaryFormat := d.boundaryFormat } hw a b v.val ⟨v, hv, rfl⟩⟩
    obtain ⟨st, hst⟩ := boundarySim_stats hv
    simp only [hw] at hst
    obtain ⟨sa, sb, c, g1, hl, he, hm, hc, c0, c1, c2, c3, hD, hp, hty, hpos⟩ := default_facts hst
    have heq := boundarySim_eq (kw := { kw with boundaryFormat := d.boundaryFormat })
      (by simp only [hw]; exact hst) hc hD
    rw [hv] at heq
    simp only at heq
    split at heq <;> cases heq
    trivial) hd hc hne h
  refine ⟨s, h1, h2, h3, h4, h6, h8, ?_⟩
  have := h10 1 (Or.inr rfl)
  rw [Rat.cast_one] at this
  rw [this]
  exact complete_iff hv (fun a b sa sb x da db hx =>
    C18_one_iff rt { kw with boundaryFormat := d.boundaryFormat } hw ho a b sa sb da db x hx) h9

/-- C77: the comparison returns values whenever any two coders of an item code documents of the same
length with some boundary (and no position has more than 256 differing types). -/
theorem C77_defined {o : ClassOrder Name} {rt : Runtime} {kw : SimKw} (hw : kw.weight = .default)
    (hr : kw.returnParts = false) (hn : kw.nT ≠ 0) {permuted : Bool} {d : Dataset}
    (hi : d.items ≠ []) (hc : NoCommas d.items)
    (hv : ∀ label m n sm sn, m ≠ n → Coded d.items label m sm → Coded d.items label n sn →
      ∃ bm bn, Denotes d.boundaryFormat sm bm ∧ Denotes d.boundaryFormat sn bn ∧
        bm.length = bn.length ∧ (∃ t, UsesType bm bn t) ∧ ∀ p, (missedAt bm bn p).card ≤ 256)
    (hd : IsDict d.items) :
    ∃ vals : List (Name × PyNum),
      fncMetric o (fun fmt => boundarySimilarity rt { kw with boundaryFormat := fmt })
        kw.boundaryFormat permuted { args := [.dataset d] } =
        .ok (.pairs (vals.map (fun e => (e.1, .num e.2)))) := by
  have hbef : ∀ label m n, (Before d.items label m n ∨ (permuted = true ∧ Before d.items label n m)) →
      m ≠ n := by
    have key : ∀ label m n, Before d.items label m n → m ≠ n := by
      rintro label m n ⟨cs, h1, h2⟩
      have := h2.nodup (hd.2 _ (dictGet_mem h1))
      simpa using this
    rintro label m n (h | ⟨_, h⟩)
    · exact key _ _ _ h
    · exact (key _ _ _ h).symm
  have hret : ∀ label m n sm sn, Coded d.items label m sm → Coded d.items label n sn →
      (Before d.items label m n ∨ (permuted = true ∧ Before d.items label n m)) →
      ∃ x, Returns (boundarySimilarity rt { kw with boundaryFormat := d.boundaryFormat } sm sn) x := by
    intro label m n sm sn c1 c2 c3
    obtain ⟨bm, bn, dm, dn, hl, ht, hsm⟩ := hv label m n sm sn (hbef _ _ _ c3) c1 c2
    exact (C17_total rt { kw with boundaryFormat := d.boundaryFormat } hw hr sm sn bm bn dm dn hl hn
      ht hsm).1
  rw [C44_accepts o _ kw.boundaryFormat permuted _ (.dataset d) ⟨hi, Or.inl rfl⟩]
  simp only [reply]
  cases hp : computePairwiseValues o (boundarySimilarity rt { kw with boundaryFormat := d.boundaryFormat })
      permuted d.items none with
  | error e =>
    obtain ⟨label, m, n, sm, sn, c1, c2, c3, c4⟩ := C41_raises o _ permuted d.items e hp
    obtain ⟨x, v, hx, _⟩ := hret label m n sm sn c1 c2 c3
    rw [hx] at c4
    cases c4
  | ok out =>
    obtain ⟨hnd, hent⟩ := C41_entries o _ permuted d.items hc _ hp
    have hall : ∀ e ∈ out, ∃ v : PyNum, e.2 = .num v := by
      rintro ⟨k, v⟩ he
      obtain ⟨label, m, n, sm, sn, c1, c2, c3, _, c5⟩ := (hent k v).1 he
      obtain ⟨x, v', hx, _⟩ := hret label m n sm sn c1 c2 c3
      rw [c5] at hx
      cases hx
      exact ⟨v', rfl⟩
    have : ∃ vals : List (Name × PyNum), out = vals.map (fun e => (e.1, .num e.2)) := by
      clear hp hent hnd
      induction out with
      | nil => exact ⟨[], rfl⟩
      | cons e es ih =>
        obtain ⟨v, hv⟩ := hall e (by simp)
        obtain ⟨vs, hvs⟩ := ih (fun e he => hall e (by simp [he]))
        refine ⟨(e.1, v) :: vs, ?_⟩
        rw [List.map_cons, ← hvs, ← hv]
    obtain ⟨vals, rfl⟩ := this
    exact ⟨vals, rfl⟩

/-- Two coders of one item, three of another. -/
def exMean : Dataset :=
  ⟨[("x".toList, [("a".toList, mass [2, 2]), ("b".toList, mass [1, 3])]),
    ("y".toList, [("a".toList, mass [1, 1]), ("b".toList, mass [1, 1]), ("c".toList, mass [1, 1])])],
    {"a".toList, "b".toList, "c".toList}, .mass⟩

/-- The mean of 1/2, 1, 1 and 1. -/
example : fncMetric ascN (fun fmt => boundarySimilarity .ascending { boundaryFormat := fmt })
      .mass false { args := [.dataset exMean] } =
      .ok (.pairs (([("x,a,b".toList, .dec (1 / 2)), ("y,a,b".toList, .dec 1), ("y,a,c".toList, .dec 1),
        ("y,b,c".toList, .dec 1)] : List (Name × PyNum)).map (fun e => (e.1, .num e.2)))) ∧
    IsDict exMean.items ∧ NoCommas exMean.items ∧ AllValid .mass exMean.items ∧
    pyMean [.dec (1 / 2), .dec 1, .dec 1, .dec 1] = .ok (.dec (7 / 8)) := by
  refine ⟨by decide +kernel, ⟨by decide +kernel, by decide +kernel⟩, ?_, ?_, by decide +kernel⟩
  · rintro label m s ⟨cs, h1, h2⟩
    have h1 := dictGet_mem h1
    have h2 := dictGet_mem h2
    simp only [exMean, List.mem_cons, List.not_mem_nil, or_false, Prod.mk.injEq] at h1
    rcases h1 with ⟨_, rfl⟩ | ⟨_, rfl⟩ <;>
      simp only [List.mem_cons, List.not_mem_nil, or_false, Prod.mk.injEq] at h2
    · rcases h2 with ⟨rfl, _⟩ | ⟨rfl, _⟩ <;> decide
    · rcases h2 with ⟨rfl, _⟩ | ⟨rfl, _⟩ | ⟨rfl, _⟩ <;> decide
  · rintro label m s ⟨cs, h1, h2⟩
    have h1 := dictGet_mem h1
    have h2 := dictGet_mem h2
    simp only [exMean, List.mem_cons, List.not_mem_nil, or_false, Prod.mk.injEq] at h1
    rcases h1 with ⟨_, rfl⟩ | ⟨_, rfl⟩ <;>
      simp only [List.mem_cons, List.not_mem_nil, or_false, Prod.mk.injEq] at h2
    · rcases h2 with ⟨_, rfl⟩ | ⟨_, rfl⟩
      · exact ⟨_, massSeg_denotes [2, 2] (by simp) (by decide) [∅, {1}, ∅] (by decide +kernel)⟩
      · exact ⟨_, massSeg_denotes [1, 3] (by simp) (by decide) [{1}, ∅, ∅] (by decide +kernel)⟩
    · have : s = mass [1, 1] := by tauto
      subst this
      exact ⟨_, massSeg_denotes [1, 1] (by simp) (by decide) [{1}] (by decide +kernel)⟩

/-- C77: the same for segmentation similarity. -/
theorem C77_segmentation {o : ClassOrder Name} {rt : Runtime} {kw : SimKw} (hw : kw.weight = .default)
    (ho : kw.oneMinus = false) {permuted : Bool} {d : Dataset} (hd : IsDict d.items)
    (hc : NoCommas d.items) (hv : AllValid d.boundaryFormat d.items) 
    (hs : d.boundaryFormat ≠ .sets ∨ AllShared rt d.boundaryFormat d.items)
    {vals : List (Name × PyNum)} (hne : vals ≠ [])
    (h : fncMetric o (fun fmt => segmentationSimilarity rt { kw with boundaryFormat := fmt })
      kw.boundaryFormat permuted { args := [.dataset d] } =
      .ok (.pairs (vals.map (fun e => (e.1, .num e.2))))) :
    ∃ s, summarize (vals.map Prod.snd) = .ok s ∧
      s.count = (d.items.map (fun e => (if permuted then 2 else 1) * e.2.length.choose 2)).sum ∧
      0 ≤ s.mean ∧ s.mean ≤ 1 ∧ s.var ≤ 1 / 4 ∧ s.std ≤ 1 / 2 ∧
      (s.mean = 1 ↔ CompleteAgreement d.boundaryFormat d.items) := by
  have hs' := hs.elim (fun h => allShared_of (rt := rt) h) (fun h => h)
  obtain ⟨s, h1, h2, h3, h4, h5, h6, h7, h8, h9, h10⟩ := dataset_summary (fun _ _ _ a b v ca cb hab => by
    obtain ⟨sa, da⟩ := hv _ _ _ ca
    obtain ⟨sb, db⟩ := hv _ _ _ cb
    refine ⟨?_, C20_range rt { kw with boundaryFormat := d.boundaryFormat } hw a b sa sb da db
      (hs' _ _ _ _ _ _ _ ca cb da db) v.val ⟨v, hab, rfl⟩⟩
    obtain ⟨st, hst⟩ := segmentationSim_stats hab
    simp only [hw] at hst
    obtain ⟨sa, sb, c, g1, hl, he, hm, hc, c0, c1, c2, c3, hD, hp, hty, hpos⟩ := default_facts hst
    have heq := segmentationSim_eq (kw := { kw with boundaryFormat := d.boundaryFormat })
      (by simp only [hw]; exact hst) hc hpos
    rw [hab] at heq
    simp only at heq
    split at heq <;> cases heq
    trivial) hd hc hne h
  refine ⟨s, h1, h2, h3, h4, h6, h8, ?_⟩
  have := h10 1 (Or.inr rfl)
  rw [Rat.cast_one] at this
  rw [this]
  exact complete_iff hv (fun a b sa sb x da db hx =>
    C20_one_iff rt { kw with boundaryFormat := d.boundaryFormat } hw ho a b sa sb da db x hx) h9

theorem pk_noFlt {kw : WinKw} {h r : Seg} {v : PyNum} (hv : pk kw h r = .ok (.num v)) : v.NoFlt := by
  obtain ⟨th, lh, tr, lr, w, s, h1, h2, h3, h4⟩ := pk_inv hv
  unfold pkOut at h4
  split at h4
  · cases h4
  · split at h4
    · cases h4; trivial
    · split at h4 <;> cases h4 <;> trivial

theorem wd_noFlt {kw : WinKw} {h r : Seg} {v : PyNum} (hv : windowDiff kw h r = .ok (.num v)) :
    v.NoFlt := by
  obtain ⟨th, lh, tr, lr, w, s, h1, h2, hl, hf, h3, h4⟩ := wd_inv hv
  unfold wdOut at h4
  split at h4
  · split at h4 <;> cases h4
  · split at h4
    · cases h4
    · split at h4
      · split at h4 <;> cases h4
        trivial
      · cases h4; trivial

/-- C77: `summarize(pk(dataset))` and `summarize(window_diff(dataset))`: means between 0 and 1,
deviations at most 1/2, and as many values as pairs. -/
theorem C77_window {o : ClassOrder Name} {kw : WinKw} {f : WinKw → Seg → Seg → Py MetricOut}
    (hf : f = pk ∨ f = windowDiff) {permuted : Bool} {d : Dataset} (hd : IsDict d.items)
    (hc : NoCommas d.items) {vals : List (Name × PyNum)} (hne : vals ≠ [])
    (h : fncMetric o (fun fmt => f { kw with boundaryFormat := fmt })
      kw.boundaryFormat permuted { args := [.dataset d] } =
      .ok (.pairs (vals.map (fun e => (e.1, .num e.2))))) :
    ∃ s, summarize (vals.map Prod.snd) = .ok s ∧
      s.count = (d.items.map (fun e => (if permuted then 2 else 1) * e.2.length.choose 2)).sum ∧
      0 ≤ s.mean ∧ s.mean ≤ 1 ∧ s.var ≤ 1 / 4 ∧ s.std ≤ 1 / 2 := by
  obtain ⟨s, h1, h2, h3, h4, h5, h6, h7, h8, h9, h10⟩ := dataset_summary (fun _ _ _ a b v _ _ hv => by
    rcases hf with rfl | rfl
    · exact ⟨pk_noFlt hv, C26_range _ _ _ _ ⟨v, hv, rfl⟩⟩
    · exact ⟨wd_noFlt hv, C27_range _ _ _ _ ⟨v, hv, rfl⟩⟩) hd hc hne h
  exact ⟨s, h1, h2, h3, h4, h6, h8⟩

/-- C77: actual agreement lies between the least and the greatest boundary similarity of two coders
of an item. -/
theorem C77_agreement {o : ClassOrder Name} {rt : Runtime} {nT : ℤ} {kw : BoundaryFormat}
    {data : AgrData} {x : PyNum} (hd : IsDict data.items)
    (h : actualAgreement o (compareB rt nT .default) kw data = .ok x) {lo hi : ℚ}
    (hb : ∀ label m n sm sn y, m ≠ n → Coded data.items label m sm → Coded data.items label n sn →
      Returns (boundarySimilarity rt ⟨agrFormat kw data, false, false, nT, .default⟩ sm sn) y →
      lo ≤ y ∧ y ≤ hi) : lo ≤ x.val ∧ x.val ≤ hi := by
  have hn := rowsNoFlt_default rt nT (agrFormat kw data) (jobsOf o data)
  obtain ⟨h1, h2⟩ := (actual_ok x).1 h
  obtain ⟨h3, h4⟩ := actualOfParts_ok hn h2
  have hr := rowsAre_default h1
  have hjob : ∀ j ∈ jobsOf o data,
      0 < (rowD (compareB rt nT .default) (agrFormat kw data) j).den.val ∧
      lo * (rowD (compareB rt nT .default) (agrFormat kw data) j).den.val ≤
        (rowD (compareB rt nT .default) (agrFormat kw data) j).num.val ∧
      (rowD (compareB rt nT .default) (agrFormat kw data) j).num.val ≤
        hi * (rowD (compareB rt nT .default) (agrFormat kw data) j).den.val := by
    rintro ⟨⟨m, n⟩, ⟨label, cs⟩⟩ hj
    obtain ⟨a, b, hab⟩ := hr _ hj
    obtain ⟨sa, sb, c1, c2, c3, c4, c5, c6⟩ := jobRow_parts (h1 _ hj)
    simp only at c1 c2
    obtain ⟨hp, hit⟩ := mem_jobs.1 hj
    have hsub := (mem_combinations2 _ _ _).1 hp
    have hne : m ≠ n := by have := hsub.nodup (o.nodup [] _); simpa using this
    have hl := dictGet_of_mem hd.1 hit
    have hret : Returns (boundarySimilarity rt ⟨agrFormat kw data, false, false, nT, .default⟩ sa sb)
        ((rowD (compareB rt nT .default) (agrFormat kw data) ((m, n), (label, cs))).num.val /
          (rowD (compareB rt nT .default) (agrFormat kw data) ((m, n), (label, cs))).den.val) := by
      generalize rowD (compareB rt nT .default) (agrFormat kw data) ((m, n), (label, cs)) = row at c3 ⊢
      unfold compareB at c3
      by_cases ht : (sa.truthy && sb.truthy) = true
      · rw [if_pos ht] at c3
        cases hv : boundarySimilarity rt ⟨agrFormat kw data, false, true, nT, .default⟩ sa sb with
        | error e => rw [hv] at c3; cases c3
        | ok v =>
          obtain ⟨st, hst⟩ := boundarySim_stats hv
          simp only at hst
          obtain ⟨sa', sb', c, g1, hl, he, hm, hc, k0, k1, k2, k3, hD, hp, hty, hpos⟩ := default_facts hst
          have heq := boundarySim_eq (kw := ⟨agrFormat kw data, false, true, nT, .default⟩) hst hc hD
          have heq' := boundarySim_eq (kw := ⟨agrFormat kw data, false, false, nT, .default⟩) hst hc hD
          rw [hv] at heq
          simp only [if_true] at heq
          cases heq
          rw [hv] at c3
          simp only [Except.ok.injEq, Prod.mk.injEq] at c3
          rw [← c3.1, ← c3.2, heq']
          refine ⟨_, rfl, ?_⟩
          simp [PyNum.val]
      · rw [if_neg ht] at c3; cases c3
    have := hb label m n sa sb _ hne ⟨cs, hl, c1⟩ ⟨cs, hl, c2⟩ hret
    rw [le_div_iff₀ hab.den_pos, div_le_iff₀ hab.den_pos] at this
    exact ⟨hab.den_pos, this.1, this.2⟩
  have hpos : 0 < denSum (compareB rt nT .default) (agrFormat kw data) (jobsOf o data) := by
    refine lt_of_le_of_ne (List.sum_nonneg ?_) (Ne.symm h3)
    intro y hy
    obtain ⟨j, hj, rfl⟩ := List.mem_map.1 hy
    exact (hjob j hj).1.le
  rw [h4, le_div_iff₀ hpos, div_le_iff₀ hpos, denSum, numSum, ← List.sum_map_mul_left,
    ← List.sum_map_mul_left]
  exact ⟨(sum_le_eq _ _ _ (fun j hj => (hjob j hj).2.1)).1,
    (sum_le_eq _ _ _ (fun j hj => (hjob j hj).2.2)).1⟩

end SegEval.Props
