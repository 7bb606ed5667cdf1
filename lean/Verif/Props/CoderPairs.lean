import Verif.Lemmas.CoderPairs
import Verif.Props.Chance
import Verif.Props.Documented

/-!
# C122: agreement of many coders and of each two of them
-/

namespace SegEval.Props

open SegEval Spec

section
variable {o o' : ClassOrder Name} {rt : Runtime} {nT : ℤ} {kw : BoundaryFormat} {data : AgrData}

/-- The value of actual agreement for two of the coders. -/
def PairActual (o : ClassOrder Name) (cmp : Compare) (fmt : BoundaryFormat) (items : Items) (m n : Name)
    (y : ℚ) : Prop :=
  ∃ z, actualAgreement o cmp fmt (.dict (ofPair items m n)) = .ok z ∧ z.val = y

theorem pairs_actual {cmp : Compare} {fmt : BoundaryFormat} (hf : agrFormat kw data = fmt)
    (hd : IsDict data.items)
    (hnf : RowsNoFlt cmp fmt (jobsOf o data))
    (hnf' : ∀ m n, RowsNoFlt cmp fmt (jobsOf o' (.dict (ofPair data.items m n))))
    (hsym : RowsSym cmp cmp fmt (o.order [] (getCoders data)) data.items)
    (hrows : RowsOk cmp fmt (jobsOf o data) → RowsAre cmp fmt (jobsOf o data))
    {x : PyNum} (h : actualAgreement o cmp kw data = .ok x) :
    (∀ m ∈ getCoders data, ∀ n ∈ getCoders data, m ≠ n →
      ∃ y, PairActual o' cmp fmt data.items m n y) ∧
    WithinPairs (getCoders data) (PairActual o' cmp fmt data.items) x.val := by
  obtain ⟨hok, hx⟩ := (actual_ok x).1 h
  rw [hf] at hok hx
  obtain ⟨h1, h2⟩ := actualOfParts_ok hnf hx
  have hjs := denSum_nil h1
  have hi : data.items ≠ [] := by
    rintro e
    apply hjs
    simp [jobsOf, jobs, e]
  have hr := hrows hok
  have hpos : ∀ p ∈ combinations2 (o.order [] (getCoders data)),
      0 < pairSum cmp fmt data.items (fun r => r.den.val) p := by
    intro p hp
    refine sum_pos' data.items _ hi fun it hit => ?_
    obtain ⟨a, b, hab⟩ := hr (p, it) (mem_jobs.2 ⟨hp, hit⟩)
    exact hab.den_pos
  have each : ∀ p ∈ combinations2 (o.order [] (getCoders data)), ∃ z,
      actualAgreement o' cmp fmt (.dict (ofPair data.items p.1 p.2)) = .ok z ∧
      z.val = pairSum cmp fmt data.items (fun r => r.num.val) p /
        pairSum cmp fmt data.items (fun r => r.den.val) p := by
    rintro ⟨m, n⟩ hp
    obtain ⟨g1, g2, g3⟩ := rowsOk_ofPair (o' := o') hd hok hsym hi hp
    obtain ⟨z, hz⟩ := (actualOfParts_defined (hnf' m n)).2 (by rw [g3]; exact (hpos _ hp).ne')
    refine ⟨z, (actual_ok z).2 ⟨g1, hz⟩, ?_⟩
    rw [(actualOfParts_ok (hnf' m n) hz).2, g2, g3]
  have mem : ∀ p ∈ combinations2 (o.order [] (getCoders data)),
      p.1 ∈ getCoders data ∧ p.2 ∈ getCoders data ∧ p.1 ≠ p.2 := by
    rintro ⟨m, n⟩ hp
    have hsub := (mem_combinations2 _ _ _).1 hp
    exact ⟨(o.mem [] _ _).1 (hsub.subset (by simp)), (o.mem [] _ _).1 (hsub.subset (by simp)),
      by have := hsub.nodup (o.nodup [] _); simpa using this⟩
  have all : ∀ m ∈ getCoders data, ∀ n ∈ getCoders data, m ≠ n →
      ∃ p ∈ combinations2 (o.order [] (getCoders data)), ofPair data.items m n = ofPair data.items p.1 p.2 := by
    intro m hm n hn hne
    rcases pair_order ((o.mem [] _ _).2 hm) ((o.mem [] _ _).2 hn) hne with hp | hp
    · exact ⟨_, hp, rfl⟩
    · exact ⟨_, hp, ofPair_comm _ _ _⟩
  refine ⟨?_, ?_⟩
  · intro m hm n hn hne
    obtain ⟨p, hp, e⟩ := all m hm n hn hne
    obtain ⟨z, hz, -⟩ := each p hp
    exact ⟨_, z, by rw [e]; exact hz, rfl⟩
  · have hsum : 0 < ((combinations2 (o.order [] (getCoders data))).map
        (pairSum cmp fmt data.items (fun r => r.den.val))).sum := by
      rw [← denSum_pairs]
      exact (actual_unit hr hjs).1
    have hw := sums_within _ (pairSum cmp fmt data.items (fun r => r.num.val))
      (pairSum cmp fmt data.items (fun r => r.den.val)) (fun p hp => (hpos p hp).le)
      (fun p hp e => absurd e (hpos p hp).ne') hsum
    rw [← numSum_pairs, ← denSum_pairs, ← h2] at hw
    rcases hw with hw | ⟨⟨p, hp, -, hlt⟩, ⟨q, hq, -, hgt⟩⟩
    · left
      rintro m hm n hn hne y ⟨z, hz, rfl⟩
      obtain ⟨p, hp, e⟩ := all m hm n hn hne
      obtain ⟨z', hz', hv⟩ := each p hp
      rw [e, hz'] at hz
      cases hz
      rw [hv]
      exact hw p hp (hpos p hp)
    · right
      obtain ⟨z, hz, hv⟩ := each p hp
      obtain ⟨z', hz', hv'⟩ := each q hq
      obtain ⟨m1, m2, m3⟩ := mem p hp
      obtain ⟨n1, n2, n3⟩ := mem q hq
      exact ⟨⟨p.1, m1, p.2, m2, m3, _, ⟨z, hz, rfl⟩, by rw [hv]; exact hlt⟩,
        q.1, n1, q.2, n2, n3, _, ⟨z', hz', rfl⟩, by rw [hv']; exact hgt⟩

theorem valid_ofPair {fmt : BoundaryFormat} {items : Items} (hv : AllValid fmt items) (m n : Name) :
    AllValid fmt (ofPair items m n) := fun l c s h => hv l c s (coded_ofPair.1 h).1

theorem shared_ofPair {fmt : BoundaryFormat} {items : Items} (hs : AllShared rt fmt items) (m n : Name) :
    AllShared rt fmt (ofPair items m n) := fun l c c' s s' b b' h h' =>
  hs l c c' s s' b b' (coded_ofPair.1 h).1 (coded_ofPair.1 h').1

/-- C122: whenever actual agreement of the coders is defined, so is that of every two of them; and the
former is between the lowest and the highest of the latter, strictly unless these are all the same. -/
theorem C122_actual_partial (hd : IsDict data.items) (hv : AllValid (agrFormat kw data) data.items)
    (hs : TypesShared rt kw data) {x : PyNum}
    (h : actualAgreement o (compareB rt nT .default) kw data = .ok x) :
    (∀ m ∈ getCoders data, ∀ n ∈ getCoders data, m ≠ n →
      ∃ y, PairActual o' (compareB rt nT .default) (agrFormat kw data) data.items m n y) ∧
    WithinPairs (getCoders data)
      (PairActual o' (compareB rt nT .default) (agrFormat kw data) data.items) x.val :=
  pairs_actual rfl hd (rowsNoFlt_default _ _ _ _) (fun _ _ => rowsNoFlt_default _ _ _ _)
    (rowsSym_compareB ⟨rfl, .inr rfl, .inr rfl⟩ hd hv hs.all hs.all) rowsAre_default h

/-- C122: the same for segmentation similarity. -/
theorem C122_segmentation_partial (hd : IsDict data.items) (hv : AllValid (agrFormat kw data) data.items)
    (hs : TypesShared rt kw data) {x : PyNum}
    (h : actualAgreement o (compareS rt nT .default) kw data = .ok x) :
    (∀ m ∈ getCoders data, ∀ n ∈ getCoders data, m ≠ n →
      ∃ y, PairActual o' (compareS rt nT .default) (agrFormat kw data) data.items m n y) ∧
    WithinPairs (getCoders data)
      (PairActual o' (compareS rt nT .default) (agrFormat kw data) data.items) x.val := by
  have hb : ∀ j ∈ jobsOf o data, RowBoth rt nT (agrFormat kw data) j := fun j hj => rowBoth hd hv hs.all hj
  refine pairs_actual rfl hd (rowsNoFlt_segmentation hb) (fun m n => rowsNoFlt_segmentation fun j hj =>
    rowBoth (data := .dict (ofPair data.items m n)) (isDict_ofPair hd m n) (valid_ofPair hv m n)
      (shared_ofPair hs.all m n) hj)
    (rowsSym_compareS ⟨rfl, .inr rfl, .inr rfl⟩ hd hv hs.all hs.all) (rowsAre_segmentation hb) h

/-! ## Kappa -/

/-- The value of kappa for two of the coders. -/
def PairKappa (o : ClassOrder Name) (cmp : Compare) (fmt : BoundaryFormat) (items : Items) (m n : Name)
    (y : ℚ) : Prop :=
  ∃ z, fleissKappa o cmp fmt false (.dict (ofPair items m n)) = .ok (.value z) ∧ z.val = y

variable {S : Name → Name → BString}

theorem lin_sum {α : Type _} (l : List α) (f g : α → ℚ) (a b c : ℚ) :
    (l.map (fun p => a * f p + b * g p + c)).sum = a * (l.map f).sum + b * (l.map g).sum + c * l.length := by
  induction l with
  | nil => simp
  | cons x l ih =>
    simp only [List.map_cons, List.sum_cons, ih, List.length_cons]
    push_cast
    ring

theorem meanProduct_pair {m n : Name} (hne : m ≠ n) (r : Name → ℚ) :
    meanProduct {m, n} r = r m * r n := by
  rw [meanProduct, Finset.sum_pair hne, Finset.card_pair hne,
    show ({m, n} : Finset Name).erase m = {n} by ext; simp; grind,
    show ({m, n} : Finset Name).erase n = {m} by ext; simp; grind, Finset.sum_singleton,
    Finset.sum_singleton]
  push_cast
  ring

theorem kappa_shares (hd : IsDict data.items) (hc : CodersMatch data)
    (hf : agrFormat kw data ≠ .sets) (hS : CodedAs (agrFormat kw data) data.items S)
    {v : PyNum} (h : fleissKappa o (compareS rt nT .default) kw false data = .ok (.value v)) :
    ∃ x, actualAgreement o (compareS rt nT .default) kw data = .ok x ∧
      meanProduct (getCoders data) (boundaryShare data.items S) < 1 ∧
      v.val = corrected x.val (meanProduct (getCoders data) (boundaryShare data.items S)) := by
  have hv := valid_of_codedAs hS
  obtain ⟨v', x, ae, hout, hx, hp, h0, h1, hval, -, -, -⟩ := C95_kappa hd hc hv (.inl hf) h
  cases hout
  obtain ⟨y, hy⟩ := (C96_actual hd hv (.inl hf)).1.1 ⟨x, hx⟩
  obtain ⟨g1, g2, -⟩ := C96_kappa (o := o) (rt := rt) (nT := nT) hd hv (.inl hf)
  obtain ⟨out, hB⟩ := (g1 false).1 ⟨_, h⟩
  obtain ⟨w, z, be, -, -, hpB, -⟩ := C48_kappa hd hc hv hB
  have hbe : be = ae := by have := g2 _ _ _ _ hpB hp; cases this; rfl
  have hae := C63_kappa hd hv (counts_codedAs hS) hpB
  simp only [PyNum.val] at hae
  have hae' : ae = meanProduct (getCoders data) (boundaryShare data.items S) := by
    rw [← hbe, hae, meanProduct, meanProduct]
    congr 1
    refine Finset.sum_congr rfl fun m hm => Finset.sum_congr rfl fun n hn' => ?_
    rw [rate_share hd hf hS hy hm, rate_share hd hf hS hy (Finset.mem_of_mem_erase hn')]
  exact ⟨x, hx, hae' ▸ h1, by rw [hval, hae', corrected]⟩

/-- A coder whose share is all positions places a boundary at each. -/
theorem share_one {items : Items} {m : Name} (h : boundaryShare items S m = 1) {it : Name × Codings}
    (hit : it ∈ items) {p : ℕ} (hp : p < (S it.1 m).length) : typesAt (S it.1 m) p ≠ ∅ := by
  have hle : ∀ it ∈ items, (placedAt (S it.1 m) : ℚ) ≤ ((S it.1 m).length : ℚ) := by
    intro it _
    have : placedAt (S it.1 m) ≤ (S it.1 m).length := by
      rw [placedAt]
      exact (Finset.card_filter_le _ _).trans (by simp)
    exact_mod_cast this
  have h1 : (items.map (fun it => (placedAt (S it.1 m) : ℚ))).sum =
      (items.map (fun it => ((S it.1 m).length : ℚ))).sum := by
    by_cases h0 : (items.map (fun it => ((S it.1 m).length : ℚ))).sum = 0
    · rw [boundaryShare, h0, div_zero] at h; norm_num at h
    · rw [boundaryShare, div_eq_one_iff_eq h0] at h; exact h
  have h2 := (sum_le_eq items _ _ hle).2.1 h1 it hit
  have h3 : placedAt (S it.1 m) = (S it.1 m).length := by exact_mod_cast h2
  rw [placedAt] at h3
  have h4 := Finset.eq_of_subset_of_card_le
    (Finset.filter_subset (fun p => typesAt (S it.1 m) p ≠ ∅) (Finset.range (S it.1 m).length))
    (by rw [h3]; simp)
  have h5 : p ∈ (Finset.range (S it.1 m).length).filter (fun p => typesAt (S it.1 m) p ≠ ∅) := by
    rw [h4]; exact Finset.mem_range.2 hp
  exact (Finset.mem_filter.1 h5).2

theorem share_full {items : Items} {m : Name}
    (hpos : 0 < (items.map (fun it => ((S it.1 m).length : ℚ))).sum)
    (h : ∀ it ∈ items, ∀ p < (S it.1 m).length, typesAt (S it.1 m) p ≠ ∅) :
    boundaryShare items S m = 1 := by
  rw [boundaryShare, div_eq_one_iff_eq hpos.ne']
  refine congrArg List.sum (List.map_congr_left fun it hit => ?_)
  have : (Finset.range (S it.1 m).length).filter (fun p => typesAt (S it.1 m) p ≠ ∅) =
      Finset.range (S it.1 m).length :=
    Finset.filter_true_of_mem fun p hp => h it hit p (Finset.mem_range.1 hp)
  rw [placedAt, this, Finset.card_range]

theorem codedAs_ofPair {fmt : BoundaryFormat} {items : Items} (hS : CodedAs fmt items S) (m n : Name) :
    CodedAs fmt (ofPair items m n) S := fun l c s h => hS l c s (coded_ofPair.1 h).1

theorem boundaryShare_ofPair (items : Items) (m n : Name) :
    boundaryShare (ofPair items m n) S = boundaryShare items S := by
  funext c
  simp only [boundaryShare, ofPair, List.map_map]
  rfl

theorem overPairs_pair {m n : Name} (hne : m ≠ n) (L : Finset Name) (G : Name → Name → Name → ℚ) :
    overPairs {m, n} L G = (∑ l ∈ L, G l m n) + ∑ l ∈ L, G l n m := by
  rw [overPairs, Finset.sum_pair hne,
    show ({m, n} : Finset Name).erase m = {n} by ext; simp; grind,
    show ({m, n} : Finset Name).erase n = {m} by ext; simp; grind, Finset.sum_singleton,
    Finset.sum_singleton]

theorem coders_pair (hd : IsDict data.items) {cmp : Compare} {x : PyNum}
    (hx : actualAgreement o cmp kw data = .ok x) (hi : data.items ≠ []) {m n : Name}
    (hm : m ∈ getCoders data) (hn : n ∈ getCoders data) (hne : m ≠ n) :
    getCoders (.dict (ofPair data.items m n)) = {m, n} :=
  getCoders_ofPair hd ((actual_ok x).1 hx).1 hi hm hn hne

/-- Measured with segmentation similarity, every pair of coders has the same weight. -/
theorem actual_mean (hd : IsDict data.items) (hf : agrFormat kw data ≠ .sets)
    (hS : CodedAs (agrFormat kw data) data.items S) {x : PyNum}
    (hx : actualAgreement o (compareS rt nT .default) kw data = .ok x) :
    ∃ y : Name × Name → ℚ,
      (∀ p ∈ combinations2 (o.order [] (getCoders data)),
        ∃ z, actualAgreement o' (compareS rt nT .default) (agrFormat kw data)
          (.dict (ofPair data.items p.1 p.2)) = .ok z ∧ z.val = y p) ∧
      ((combinations2 (o.order [] (getCoders data))).map y).sum =
        x.val * (combinations2 (o.order [] (getCoders data))).length := by
  have hv := valid_of_codedAs hS
  obtain ⟨yB, hyB⟩ := (C96_actual hd hv (.inl hf)).1.1 ⟨x, hx⟩
  obtain ⟨hC, hi⟩ := some_pair hyB
  obtain ⟨hall, -⟩ := C122_segmentation_partial (o' := o') hd hv (.inl hf) hx
  have mem : ∀ p ∈ combinations2 (o.order [] (getCoders data)),
      p.1 ∈ getCoders data ∧ p.2 ∈ getCoders data ∧ p.1 ≠ p.2 := by
    rintro ⟨m, n⟩ hp
    have hsub := (mem_combinations2 _ _ _).1 hp
    exact ⟨(o.mem [] _ _).1 (hsub.subset (by simp)), (o.mem [] _ _).1 (hsub.subset (by simp)),
      by have := hsub.nodup (o.nodup [] _); simpa using this⟩
  set L := (data.items.map Prod.fst).toFinset with hL
  obtain ⟨m0, hm0⟩ := Finset.card_pos.1 (show 0 < (getCoders data).card by omega)
  set T : ℚ := ∑ l ∈ L, ((S l m0).length : ℚ) with hT
  have hlen : ∀ n ∈ getCoders data, ∑ l ∈ L, ((S l n).length : ℚ) = T := by
    intro n hn
    by_cases hne : n = m0
    · rw [hne]
    · refine Finset.sum_congr rfl fun l hl => ?_
      rw [(pair_strings hd hS hyB hl hn hm0 hne hf).1]
  have hTpos : 0 < T := by
    obtain ⟨n, hn, hne⟩ := other_coder hC hm0
    obtain ⟨it, hit⟩ := List.exists_mem_of_ne_nil _ hi
    have hl : it.1 ∈ L := List.mem_toFinset.2 (List.mem_map_of_mem hit)
    obtain ⟨e1, ⟨t, p, ht⟩, -, -⟩ := pair_strings hd hS hyB hl hm0 hn hne hf
    have hpos : 0 < (S it.1 m0).length := by
      rcases ht with ht | ht
      · exact lt_of_le_of_lt (Nat.zero_le _) (typesAt_lt ht)
      · rw [e1]; exact lt_of_le_of_lt (Nat.zero_le _) (typesAt_lt ht)
    exact Finset.sum_pos' (fun l _ => Nat.cast_nonneg _) ⟨_, hl, by exact_mod_cast hpos⟩
  set a : Name → Name → ℚ := fun m n =>
    ∑ l ∈ L, (((S l n).length : ℚ) - plainCost rt nT (S l m) (S l n)) with ha
  refine ⟨fun p => (a p.1 p.2 + a p.2 p.1) / (2 * T), ?_, ?_⟩
  · rintro ⟨m, n⟩ hp
    obtain ⟨hm, hn, hne⟩ := mem _ hp
    obtain ⟨y, z, hz, rfl⟩ := hall m hm n hn hne
    refine ⟨z, hz, ?_⟩
    have hz' := actual_positions (data := .dict (ofPair data.items m n)) (kw := agrFormat kw data)
      (isDict_ofPair hd m n) hf (codedAs_ofPair hS m n) hz
    rw [coders_pair hd hx hi hm hn hne, overPairs_pair hne, overPairs_pair hne] at hz'
    have e : ((AgrData.dict (ofPair data.items m n)).items.map Prod.fst).toFinset = L :=
      congrArg List.toFinset (ofPair_labels data.items m n)
    rw [e, hlen m hm, hlen n hn, ← two_mul] at hz'
    exact hz'
  · have h1 := actual_positions hd hf hS hx
    have h2 := combos_sum a (o.order [] (getCoders data)) (o.nodup _ _)
    have h3 := combos_sum (fun _ _ => (1 : ℚ)) (o.order [] (getCoders data)) (o.nodup _ _)
    rw [order_toFinset] at h2 h3
    have h4 : overPairs (getCoders data) L (fun l _ n => ((S l n).length : ℚ)) =
        T * ∑ m ∈ getCoders data, ∑ _n ∈ (getCoders data).erase m, (1 : ℚ) := by
      rw [overPairs, Finset.mul_sum]
      refine Finset.sum_congr rfl fun m _ => ?_
      rw [Finset.mul_sum]
      refine Finset.sum_congr rfl fun n hn => ?_
      rw [hlen n (Finset.mem_of_mem_erase hn), mul_one]
    have h5 : overPairs (getCoders data) L (fun l m n =>
        ((S l n).length : ℚ) - plainCost rt nT (S l m) (S l n)) =
        ∑ m ∈ getCoders data, ∑ n ∈ (getCoders data).erase m, a m n := rfl
    rw [← hL, h4, h5, ← h2, ← h3] at h1
    have hk : ((combinations2 (o.order [] (getCoders data))).map (fun _ => (1 : ℚ) + 1)).sum =
        2 * (combinations2 (o.order [] (getCoders data))).length := by
      simp; ring
    have hlp : (0 : ℚ) < (combinations2 (o.order [] (getCoders data))).length := by
      have h6 := pairs_count hC
      rw [← mul_one ((getCoders data).card * ((getCoders data).card - 1) : ℚ), ← pairs_const, ← h3, hk] at h6
      linarith
    rw [hk] at h1
    rw [h1]
    simp only [div_eq_mul_inv]
    rw [List.sum_map_mul_right]
    field_simp

theorem pair_mem {p : Name × Name} (hp : p ∈ combinations2 (o.order [] (getCoders data))) :
    p.1 ∈ getCoders data ∧ p.2 ∈ getCoders data ∧ p.1 ≠ p.2 := by
  obtain ⟨m, n⟩ := p
  have hsub := (mem_combinations2 _ _ _).1 hp
  exact ⟨(o.mem [] _ _).1 (hsub.subset (by simp)), (o.mem [] _ _).1 (hsub.subset (by simp)),
    by have := hsub.nodup (o.nodup [] _); simpa using this⟩

/-- Strings with one type that have a boundary everywhere are equal. -/
theorem full_eq {t : ℤ} {a b : BString} (hl : a.length = b.length) (ha : Only t a) (hb : Only t b)
    (fa : ∀ p < a.length, typesAt a p ≠ ∅) (fb : ∀ p < b.length, typesAt b p ≠ ∅) : a = b := by
  refine List.ext_getElem hl fun p h1 h2 => ?_
  have e1 : typesAt a p = a[p] := by rw [typesAt, List.getElem?_eq_getElem h1]; rfl
  have e2 : typesAt b p = b[p] := by rw [typesAt, List.getElem?_eq_getElem h2]; rfl
  rw [← e1, ← e2, (ha.cases p).resolve_left (fa p h1), (hb.cases p).resolve_left (fb p h2)]

/-- Two coders who place all boundaries agree. -/
theorem full_agree (hd : IsDict data.items) (hf : agrFormat kw data ≠ .sets)
    (hS : CodedAs (agrFormat kw data) data.items S) {y : PyNum}
    (hy : actualAgreement o (compareB rt nT .default) kw data = .ok y) {m n : Name}
    (hm : m ∈ getCoders data) (hn : n ∈ getCoders data) (hne : m ≠ n)
    (h1 : boundaryShare data.items S m = 1) (h2 : boundaryShare data.items S n = 1) {z : PyNum}
    (hz : actualAgreement o' (compareS rt nT .default) (agrFormat kw data)
      (.dict (ofPair data.items m n)) = .ok z) : z.val = 1 := by
  have hdp := isDict_ofPair hd m n
  refine (C95_actual (kw := agrFormat kw data) (data := .dict (ofPair data.items m n)) hdp
    (codersMatch_dict hdp) (valid_ofPair (valid_of_codedAs hS) m n) (.inl hf) hz).2.2.2 ?_
  have eq : ∀ l s, Coded data.items l m s → S l m = S l n := by
    rintro l s ⟨cs, hcs, -⟩
    have hit := dictGet_mem hcs
    have hl : l ∈ (data.items.map Prod.fst).toFinset :=
      List.mem_toFinset.2 (List.mem_map.2 ⟨_, hit, rfl⟩)
    obtain ⟨e1, -, e3, e4⟩ := pair_strings hd hS hy hl hm hn hne hf
    exact full_eq e1 e3 e4 (fun p hp => share_one h1 hit hp) (fun p hp => share_one h2 hit hp)
  have eq' : ∀ l s, Coded data.items l n s → S l m = S l n := by
    rintro l s ⟨cs, hcs, -⟩
    have hit := dictGet_mem hcs
    have hl : l ∈ (data.items.map Prod.fst).toFinset :=
      List.mem_toFinset.2 (List.mem_map.2 ⟨_, hit, rfl⟩)
    obtain ⟨e1, -, e3, e4⟩ := pair_strings hd hS hy hl hm hn hne hf
    exact full_eq e1 e3 e4 (fun p hp => share_one h1 hit hp) (fun p hp => share_one h2 hit hp)
  intro l c c' s s' b b' hc hc' hb hb'
  obtain ⟨k1, k2⟩ := coded_ofPair.1 hc
  obtain ⟨k3, k4⟩ := coded_ofPair.1 hc'
  have d1 := denotes_unique hb (toBString_denotes (hS _ _ _ k1))
  have d2 := denotes_unique hb' (toBString_denotes (hS _ _ _ k3))
  rw [d1, d2]
  rcases k2 with rfl | rfl <;> rcases k4 with rfl | rfl
  · rfl
  · exact eq _ _ k1
  · exact (eq' _ _ k1).symm
  · rfl

/-- Expected agreement of two coders is below 1 unless both place all boundaries. -/
theorem kappa_defined (hd : IsDict data.items)
    (hf : agrFormat kw data ≠ .sets) (hS : CodedAs (agrFormat kw data) data.items S) {x : PyNum}
    (hx : actualAgreement o (compareS rt nT .default) kw data = .ok x) {m n : Name}
    (hm : m ∈ getCoders data) (hn : n ∈ getCoders data) (hne : m ≠ n)
    (h : ¬ (boundaryShare data.items S m = 1 ∧ boundaryShare data.items S n = 1)) :
    ¬ Saturated (agrFormat kw data) data.items := by
  intro hsat
  have hv := valid_of_codedAs hS
  obtain ⟨y, hy⟩ := (C96_actual hd hv (.inl hf)).1.1 ⟨x, hx⟩
  obtain ⟨hok, -⟩ := (actual_ok y).1 hy
  obtain ⟨hC, hi⟩ := some_pair hy
  have key : ∀ m n, m ∈ getCoders data → n ∈ getCoders data → m ≠ n → boundaryShare data.items S m = 1 := by
    intro m n hm hn hne
    have full : ∀ it ∈ data.items, 0 < (S it.1 m).length ∧
        ∀ p < (S it.1 m).length, typesAt (S it.1 m) p ≠ ∅ := by
      intro it hit
      obtain ⟨e1, ⟨t, q, ht⟩, -, -⟩ := pair_strings hd hS hy
        (List.mem_toFinset.2 (List.mem_map_of_mem hit)) hm hn hne hf
      obtain ⟨sm, sn, g1, g2⟩ := coded_all hok hm hn hne hit
      have hg := dictGet_of_mem hd.1 hit
      have c1 : Coded data.items it.1 m sm := ⟨_, hg, g1⟩
      have c2 : Coded data.items it.1 n sn := ⟨_, hg, g2⟩
      refine ⟨?_, fun p hp => Finset.ne_empty_of_mem
        (hsat _ _ _ _ _ _ _ hne c1 c2 (hS _ _ _ c1) (hS _ _ _ c2) t ⟨q, ht⟩ p hp)⟩
      rcases ht with ht | ht
      · exact lt_of_le_of_lt (Nat.zero_le _) (typesAt_lt ht)
      · rw [e1]; exact lt_of_le_of_lt (Nat.zero_le _) (typesAt_lt ht)
    obtain ⟨it, hit⟩ := List.exists_mem_of_ne_nil _ hi
    exact share_full (sum_counts_pos hit (f := fun l => (S l m).length) (full it hit).1)
      fun it hit => (full it hit).2
  exact h ⟨key m n hm hn hne, key n m hn hm hne.symm⟩

/-- C122: measured with segmentation similarity on a format with one boundary type, kappa of the coders is
between the lowest and the highest kappa of two of them, strictly unless these are all the same.  Not so
with the default comparison (`C122_kappa_refuted`). -/
theorem C122_kappa_partial (hd : IsDict data.items) (hc : CodersMatch data)
    (hf : agrFormat kw data ≠ .sets) (hv : AllValid (agrFormat kw data) data.items) {v : PyNum}
    (h : fleissKappa o (compareS rt nT .default) kw false data = .ok (.value v)) :
    WithinPairs (getCoders data)
      (PairKappa o' (compareS rt nT .default) (agrFormat kw data) data.items) v.val := by
  obtain ⟨S, hS⟩ : ∃ S, CodedAs (agrFormat kw data) data.items S := ⟨_, codedAs_stringOf hv⟩
  obtain ⟨x, hx, hlt, hval⟩ := kappa_shares hd hc hf hS h
  obtain ⟨yB, hyB⟩ := (C96_actual hd hv (.inl hf)).1.1 ⟨x, hx⟩
  obtain ⟨hC, hi⟩ := some_pair hyB
  obtain ⟨y, hy, hsum⟩ := actual_mean (o' := o') hd hf hS hx
  set r := boundaryShare data.items S with hr
  have rr : ∀ m, 0 ≤ r m ∧ r m ≤ 1 := fun m => share_range _ _ _
  set l := combinations2 (o.order [] (getCoders data)) with hl
  -- the value of a pair
  have pair : ∀ p ∈ l, ∀ z, fleissKappa o' (compareS rt nT .default) (agrFormat kw data) false
      (.dict (ofPair data.items p.1 p.2)) = .ok (.value z) →
      r p.1 * r p.2 < 1 ∧ z.val = (y p - r p.1 * r p.2) / (1 - r p.1 * r p.2) := by
    intro p hp z hz
    obtain ⟨hm, hn, hne⟩ := pair_mem hp
    have hdp := isDict_ofPair hd p.1 p.2
    obtain ⟨x', hx', h1, h2⟩ := kappa_shares (data := .dict (ofPair data.items p.1 p.2))
      (kw := agrFormat kw data) hdp (codersMatch_dict hdp) hf (codedAs_ofPair hS _ _) hz
    obtain ⟨z', hz', hv'⟩ := hy p hp
    rw [hz'] at hx'
    cases hx'
    rw [coders_pair hd hx hi hm hn hne] at h1 h2
    have e : boundaryShare (AgrData.dict (ofPair data.items p.1 p.2)).items S = r :=
      boundaryShare_ofPair _ _ _
    rw [e, meanProduct_pair hne] at h1 h2
    exact ⟨h1, by rw [h2, hv', corrected]⟩
  have defined : ∀ p ∈ l, r p.1 * r p.2 < 1 → ∃ z, fleissKappa o' (compareS rt nT .default)
      (agrFormat kw data) false (.dict (ofPair data.items p.1 p.2)) = .ok (.value z) := by
    intro p hp hlt
    obtain ⟨hm, hn, hne⟩ := pair_mem hp
    have hdp := isDict_ofPair hd p.1 p.2
    obtain ⟨z', hz', -⟩ := hy p hp
    have hvp := valid_ofPair hv p.1 p.2
    have hg := coders_pair hd hx hi hm hn hne
    have hns := kappa_defined (data := .dict (ofPair data.items p.1 p.2)) (kw := agrFormat kw data) (m := p.1)
      (n := p.2) hdp hf (codedAs_ofPair hS _ _) hz' (by rw [hg]; simp)
      (by rw [hg]; simp) hne (by
        have e : boundaryShare (AgrData.dict (ofPair data.items p.1 p.2)).items S = r :=
          boundaryShare_ofPair _ _ _
        rw [e]
        rintro ⟨e1, e2⟩
        rw [e1, e2] at hlt; norm_num at hlt)
    obtain ⟨yb, hyb⟩ := (C96_actual (data := .dict (ofPair data.items p.1 p.2)) (kw := agrFormat kw data)
      hdp hvp (.inl hf)).1.1 ⟨_, hz'⟩
    obtain ⟨out, hout⟩ := (C49_kappa_partial (data := .dict (ofPair data.items p.1 p.2))
      (kw := agrFormat kw data) hdp (codersMatch_dict hdp) hvp hyb false).2 hns
    obtain ⟨out', hout'⟩ := ((C96_kappa (data := .dict (ofPair data.items p.1 p.2))
      (kw := agrFormat kw data) hdp hvp (.inl hf)).1 false).2 ⟨_, hout⟩
    obtain ⟨z, -, -, rfl, -⟩ := C95_kappa (data := .dict (ofPair data.items p.1 p.2))
      (kw := agrFormat kw data) hdp (codersMatch_dict hdp) hvp (.inl hf) hout'
    exact ⟨z, hout'⟩
  -- sums over the pairs
  have hle1 : ∀ p : Name × Name, r p.1 * r p.2 ≤ 1 := fun p =>
    mul_le_one₀ (rr _).2 (rr _).1 (rr _).2
  have h2 := combos_sum (fun m n => r m * r n) (o.order [] (getCoders data)) (o.nodup _ _)
  have h3 := combos_sum (fun _ _ => (1 : ℚ)) (o.order [] (getCoders data)) (o.nodup _ _)
  rw [order_toFinset] at h2 h3
  rw [pairs_const, mul_one, ← hl] at h3
  rw [← hl] at h2
  have hlen : (2 : ℚ) * l.length = (getCoders data).card * ((getCoders data).card - 1) := by
    rw [← h3]; simp; ring
  have he : (l.map (fun p => r p.1 * r p.2)).sum =
      meanProduct (getCoders data) r * l.length := by
    have h4 : (l.map (fun p => r p.1 * r p.2 + r p.2 * r p.1)).sum =
        2 * (l.map (fun p => r p.1 * r p.2)).sum := by
      rw [← List.sum_map_mul_left]
      exact congrArg List.sum (List.map_congr_left fun p _ => by ring)
    have hk := pairs_count hC
    rw [meanProduct, ← h2, h4, ← hlen]
    rw [← hlen] at hk
    have hk' : (l.length : ℚ) ≠ 0 := by intro e; rw [e] at hk; norm_num at hk
    field_simp
  have hlp : (0 : ℚ) < l.length := by
    have := pairs_count hC
    rw [← hlen] at this; linarith
  have sN : (l.map (fun p => y p - r p.1 * r p.2)).sum =
      (x.val - meanProduct (getCoders data) r) * l.length := by
    have := lin_sum l y (fun p => r p.1 * r p.2) 1 (-1) 0
    rw [hsum, he] at this
    rw [show (fun p : Name × Name => y p - r p.1 * r p.2) =
      fun p => 1 * y p + -1 * (r p.1 * r p.2) + 0 by funext p; ring, this]
    ring
  have sD : (l.map (fun p => 1 - r p.1 * r p.2)).sum =
      (1 - meanProduct (getCoders data) r) * l.length := by
    have := lin_sum l y (fun p => r p.1 * r p.2) 0 (-1) 1
    rw [he] at this
    rw [show (fun p : Name × Name => 1 - r p.1 * r p.2) =
      fun p => 0 * y p + -1 * (r p.1 * r p.2) + 1 by funext p; ring, this]
    ring
  have hw := sums_within l (fun p => y p - r p.1 * r p.2) (fun p => 1 - r p.1 * r p.2)
    (fun p _ => sub_nonneg.2 (hle1 p)) (fun p hp e => by
      obtain ⟨hm, hn, hne⟩ := pair_mem hp
      obtain ⟨z', hz', hv'⟩ := hy p hp
      have e1 : r p.1 * r p.2 = 1 := by linarith
      have b1 : r p.1 = 1 := by nlinarith [rr p.1, rr p.2]
      have b2 : r p.2 = 1 := by rw [b1, one_mul] at e1; exact e1
      have := full_agree hd hf hS hyB hm hn hne b1 b2 hz'
      rw [← hv', this]; linarith)
    (by rw [sD]; exact mul_pos (by linarith) hlp)
  rw [sN, sD, mul_div_mul_right _ _ hlp.ne'] at hw
  change (∀ p ∈ l, _ → _ = corrected x.val (meanProduct (getCoders data) r)) ∨
    (∃ p ∈ l, _ ∧ _ < corrected x.val (meanProduct (getCoders data) r)) ∧
    (∃ p ∈ l, _ ∧ corrected x.val (meanProduct (getCoders data) r) < _) at hw
  rw [← hval] at hw
  rcases hw with hw | ⟨⟨p, hp, hp0, hlt'⟩, ⟨q, hq, hq0, hgt⟩⟩
  · left
    rintro m hm n hn hne w ⟨z, hz, rfl⟩
    rcases pair_order ((o.mem [] _ _).2 hm) ((o.mem [] _ _).2 hn) hne with hp | hp
    · obtain ⟨g1, g2⟩ := pair _ hp z hz
      rw [g2]
      exact hw _ hp (by linarith)
    · rw [ofPair_comm] at hz
      obtain ⟨g1, g2⟩ := pair _ hp z hz
      rw [g2]
      exact hw _ hp (by linarith)
  · right
    obtain ⟨z, hz⟩ := defined p hp (by linarith)
    obtain ⟨z', hz'⟩ := defined q hq (by linarith)
    obtain ⟨m1, m2, m3⟩ := pair_mem hp
    obtain ⟨n1, n2, n3⟩ := pair_mem hq
    exact ⟨⟨p.1, m1, p.2, m2, m3, _, ⟨z, hz, rfl⟩, by rw [(pair p hp z hz).2]; exact hlt'⟩,
      q.1, n1, q.2, n2, n3, _, ⟨z', hz', rfl⟩, by rw [(pair q hq z' hz').2]; exact hgt⟩

/-- The value of Fleiss' pi of two coders. -/
def PairPi (o : ClassOrder Name) (cmp : Compare) (fmt : BoundaryFormat) (items : Items) (m n : Name)
    (y : ℚ) : Prop :=
  ∃ z, fleissPi o cmp fmt false (.dict (ofPair items m n)) = .ok (.value z) ∧ z.val = y

/-- The mean over items of the share of positions at which a coder places a boundary. -/
def itemShare (items : Items) (S : Name → Name → BString) (m : Name) : ℚ :=
  (items.map (fun it => (placedAt (S it.1 m) : ℚ) / (S it.1 m).length)).sum / items.length

theorem placed_le (a : BString) : (placedAt a : ℚ) ≤ (a.length : ℚ) := by
  have : placedAt a ≤ a.length := by
    rw [placedAt]
    exact (Finset.card_filter_le _ _).trans (by simp)
  exact_mod_cast this

theorem sum_const_one (items : Items) : (items.map (fun _ => (1 : ℚ))).sum = items.length := by
  simp

theorem ratio_le (a : BString) : (placedAt a : ℚ) / a.length ≤ 1 :=
  div_le_one_of_le₀ (placed_le a) (Nat.cast_nonneg _)

theorem itemShare_range (items : Items) (S : Name → Name → BString) (m : Name) :
    0 ≤ itemShare items S m ∧ itemShare items S m ≤ 1 := by
  refine ⟨div_nonneg (List.sum_nonneg ?_) (Nat.cast_nonneg _), div_le_one_of_le₀ ?_ (Nat.cast_nonneg _)⟩
  · intro x hx
    obtain ⟨it, -, rfl⟩ := List.mem_map.1 hx
    exact div_nonneg (Nat.cast_nonneg _) (Nat.cast_nonneg _)
  · rw [← sum_const_one]
    exact List.sum_le_sum fun it _ => ratio_le _

theorem itemShare_one {items : Items} {m : Name} (hi : items ≠ [])
    (hpos : ∀ it ∈ items, 0 < (S it.1 m).length) :
    itemShare items S m = 1 ↔ boundaryShare items S m = 1 := by
  have hl : (items.length : ℚ) ≠ 0 := by exact_mod_cast (List.length_pos_iff.2 hi).ne'
  have hq : ∀ it ∈ items, ((S it.1 m).length : ℚ) ≠ 0 := fun it hit => by
    exact_mod_cast (hpos it hit).ne'
  obtain ⟨it0, hit0⟩ := List.exists_mem_of_ne_nil _ hi
  have hsum : (items.map (fun it => ((S it.1 m).length : ℚ))).sum ≠ 0 :=
    (sum_counts_pos hit0 (f := fun l => (S l m).length) (hpos _ hit0)).ne'
  rw [itemShare, boundaryShare, div_eq_one_iff_eq hl, div_eq_one_iff_eq hsum, ← sum_const_one,
    (sum_le_eq items _ _ fun it _ => ratio_le (S it.1 m)).2,
    (sum_le_eq items _ _ fun it _ => placed_le (S it.1 m)).2]
  exact forall₂_congr fun it hit => div_eq_one_iff_eq (hq it hit)

theorem mean_items (hd : IsDict data.items) (hf : agrFormat kw data ≠ .sets)
    (hS : CodedAs (agrFormat kw data) data.items S) {y : PyNum}
    (hy : actualAgreement o (compareB rt nT .default) kw data = .ok y) :
    meanRate data.items (getCoders data) (fun l m => boundaryCount (S l m))
      (fun l m n => (S l m).length * (identifyTypes (S l m) (S l n)).card) =
      (∑ m ∈ getCoders data, itemShare data.items S m) / (getCoders data).card := by
  obtain ⟨hC, hne⟩ := some_pair hy
  have hl : (data.items.length : ℚ) ≠ 0 := by
    exact_mod_cast (List.length_pos_iff.2 hne).ne'
  have e1 : ∀ m ∈ getCoders data, ∀ n ∈ (getCoders data).erase m, (data.items.map (fun it =>
      ((boundaryCount (S it.1 m) : ℕ) : ℚ) /
        (((S it.1 m).length * (identifyTypes (S it.1 m) (S it.1 n)).card : ℕ) : ℚ))).sum =
      data.items.length * itemShare data.items S m := by
    intro m hm n hn
    rw [itemShare, mul_div_cancel₀ _ hl]
    refine congrArg List.sum (List.map_congr_left fun it hit => ?_)
    obtain ⟨g1, g2⟩ := count_pair hd hf hS hy hit hm (Finset.mem_of_mem_erase hn)
      (Finset.ne_of_mem_erase hn).symm
    rw [g1, g2]
  have e2 : ∀ m ∈ getCoders data, ∑ n ∈ (getCoders data).erase m, (data.items.map (fun it =>
      ((boundaryCount (S it.1 m) : ℕ) : ℚ) /
        (((S it.1 m).length * (identifyTypes (S it.1 m) (S it.1 n)).card : ℕ) : ℚ))).sum =
      ((getCoders data).card - 1) * data.items.length * itemShare data.items S m := by
    intro m hm
    rw [Finset.sum_congr rfl (e1 m hm), Finset.sum_const, nsmul_eq_mul, Finset.card_erase_of_mem hm,
      Nat.cast_sub (by omega)]
    push_cast; ring
  have hk := pairs_count hC
  have hc0 : ((getCoders data).card : ℚ) ≠ 0 := fun h => by simp [h] at hk
  have hc1 : ((getCoders data).card : ℚ) - 1 ≠ 0 := fun h => by simp [h] at hk
  rw [meanRate, Finset.sum_congr rfl e2, ← Finset.mul_sum]
  field_simp

theorem pi_shares (hd : IsDict data.items) (hc : CodersMatch data)
    (hf : agrFormat kw data ≠ .sets) (hS : CodedAs (agrFormat kw data) data.items S)
    {v : PyNum} (h : fleissPi o (compareS rt nT .default) kw false data = .ok (.value v)) :
    ∃ x, actualAgreement o (compareS rt nT .default) kw data = .ok x ∧ x.val ≤ 1 ∧
      ((∑ m ∈ getCoders data, itemShare data.items S m) / (getCoders data).card) ^ 2 < 1 ∧
      v.val = corrected x.val
        (((∑ m ∈ getCoders data, itemShare data.items S m) / (getCoders data).card) ^ 2) := by
  have hv := valid_of_codedAs hS
  obtain ⟨v', x, ae, hout, hx, hp, h0, h1, hval, -, -, -⟩ := C95_pi hd hc hv (.inl hf) h
  cases hout
  obtain ⟨-, hx1, -⟩ := C95_actual hd hc hv (.inl hf) hx
  obtain ⟨y, hy⟩ := (C96_actual hd hv (.inl hf)).1.1 ⟨x, hx⟩
  obtain ⟨g1, g2, -⟩ := C96_pi (o := o) (rt := rt) (nT := nT) hd hv (.inl hf)
  obtain ⟨out, hB⟩ := (g1 false).1 ⟨_, h⟩
  obtain ⟨w, z, be, -, -, hpB, -⟩ := C48_pi hd hc hv hB
  have hbe : be = ae := by have := g2 _ _ _ _ hpB hp; cases this; rfl
  have hae := C63_pi hd hv (counts_codedAs hS) hpB
  simp only [PyNum.val] at hae
  rw [mean_items hd hf hS hy, hbe] at hae
  exact ⟨x, hx, hx1, hae ▸ h1, by rw [hval, hae, corrected]⟩

/-- The mean of squares is at least the square of the mean. -/
theorem mean_squares {α : Type _} (l : List α) (q : α → ℚ) {μ : ℚ} (h : (l.map q).sum = μ * l.length) :
    μ ^ 2 * l.length ≤ (l.map (fun p => q p ^ 2)).sum := by
  have h0 : 0 ≤ (l.map (fun p => (q p - μ) ^ 2)).sum := by
    refine List.sum_nonneg fun x hx => ?_
    obtain ⟨p, -, rfl⟩ := List.mem_map.1 hx
    exact sq_nonneg _
  have h1 : (l.map (fun p => (q p - μ) ^ 2)).sum =
      (l.map (fun p => q p ^ 2)).sum - 2 * μ * (l.map q).sum + μ ^ 2 * l.length := by
    clear h h0
    induction l with
    | nil => simp
    | cons a l ih => simp only [List.map_cons, List.sum_cons, ih, List.length_cons]; push_cast; ring
  rw [h1, h] at h0
  linarith

theorem sum_pos_mem {α : Type _} {l : List α} {f : α → ℚ} (h0 : ∀ p ∈ l, 0 ≤ f p) {p : α} (hp : p ∈ l)
    (h : 0 < f p) : 0 < (l.map f).sum := by
  induction l with
  | nil => cases hp
  | cons a l ih =>
    rw [List.map_cons, List.sum_cons]
    have ha := h0 a (by simp)
    have hl : 0 ≤ (l.map f).sum := List.sum_nonneg fun x hx => by
      obtain ⟨q, hq, rfl⟩ := List.mem_map.1 hx
      exact h0 q (by simp [hq])
    rcases List.mem_cons.1 hp with rfl | hp
    · linarith
    · linarith [ih (fun q hq => h0 q (by simp [hq])) hp]

theorem itemShare_ofPair (items : Items) (m n : Name) :
    itemShare (ofPair items m n) S = itemShare items S := by
  funext c
  simp only [itemShare, ofPair, List.map_map, List.length_map]
  rfl

/-- C122: measured with segmentation similarity on a format with one boundary type, pi of the coders is at
least the lowest pi of two of them.  It can be above the highest (`C122_pi_refuted`). -/
theorem C122_pi_partial (hd : IsDict data.items) (hc : CodersMatch data)
    (hf : agrFormat kw data ≠ .sets) (hv : AllValid (agrFormat kw data) data.items) {v : PyNum}
    (h : fleissPi o (compareS rt nT .default) kw false data = .ok (.value v)) :
    ∃ m ∈ getCoders data, ∃ n ∈ getCoders data, m ≠ n ∧
      ∃ y, PairPi o' (compareS rt nT .default) (agrFormat kw data) data.items m n y ∧ y ≤ v.val := by
  obtain ⟨S, hS⟩ : ∃ S, CodedAs (agrFormat kw data) data.items S := ⟨_, codedAs_stringOf hv⟩
  obtain ⟨x, hx, hx1, hlt, hval⟩ := pi_shares hd hc hf hS h
  obtain ⟨yB, hyB⟩ := (C96_actual hd hv (.inl hf)).1.1 ⟨x, hx⟩
  obtain ⟨hC, hi⟩ := some_pair hyB
  obtain ⟨y, hy, hsum⟩ := actual_mean (o' := o') hd hf hS hx
  set r := itemShare data.items S with hr
  set μ := (∑ m ∈ getCoders data, r m) / (getCoders data).card with hμ
  have rr : ∀ m, 0 ≤ r m ∧ r m ≤ 1 := fun m => itemShare_range _ _ _
  set l := combinations2 (o.order [] (getCoders data)) with hl
  set q : Name × Name → ℚ := fun p => (r p.1 + r p.2) / 2 with hq
  have qr : ∀ p, 0 ≤ q p ∧ q p ≤ 1 := fun p =>
    ⟨by have := rr p.1; have := rr p.2; simp only [hq]; linarith,
      by have := rr p.1; have := rr p.2; simp only [hq]; linarith⟩
  have hle1 : ∀ p, q p ^ 2 ≤ 1 := fun p => pow_le_one₀ (qr p).1 (qr p).2
  have ones : ∀ p ∈ l, q p ^ 2 = 1 ↔
      boundaryShare data.items S p.1 = 1 ∧ boundaryShare data.items S p.2 = 1 := by
    intro p hp
    obtain ⟨hm, hn, hne⟩ := pair_mem hp
    have pos : ∀ m ∈ getCoders data, ∀ n ∈ getCoders data, m ≠ n →
        ∀ it ∈ data.items, 0 < (S it.1 m).length := by
      intro m hm n hn hne it hit
      obtain ⟨e1, ⟨t, p, ht⟩, -, -⟩ := pair_strings hd hS hyB
        (List.mem_toFinset.2 (List.mem_map_of_mem hit)) hm hn hne hf
      rcases ht with ht | ht
      · exact lt_of_le_of_lt (Nat.zero_le _) (typesAt_lt ht)
      · rw [e1]; exact lt_of_le_of_lt (Nat.zero_le _) (typesAt_lt ht)
    rw [← itemShare_one hi (pos _ hm _ hn hne), ← itemShare_one hi (pos _ hn _ hm hne.symm), ← hr]
    have a1 := rr p.1
    have a2 := rr p.2
    constructor
    · intro e
      have e1 : q p = 1 := by nlinarith [qr p]
      simp only [hq] at e1
      constructor <;> linarith
    · rintro ⟨e1, e2⟩
      simp only [hq, e1, e2]; norm_num
  have pair : ∀ p ∈ l, ∀ z, fleissPi o' (compareS rt nT .default) (agrFormat kw data) false
      (.dict (ofPair data.items p.1 p.2)) = .ok (.value z) →
      z.val = (y p - q p ^ 2) / (1 - q p ^ 2) := by
    intro p hp z hz
    obtain ⟨hm, hn, hne⟩ := pair_mem hp
    have hdp := isDict_ofPair hd p.1 p.2
    obtain ⟨x', hx', -, -, h2⟩ := pi_shares (data := .dict (ofPair data.items p.1 p.2))
      (kw := agrFormat kw data) hdp (codersMatch_dict hdp) hf (codedAs_ofPair hS _ _) hz
    obtain ⟨z', hz', hv'⟩ := hy p hp
    rw [hz'] at hx'
    cases hx'
    have e : itemShare (AgrData.dict (ofPair data.items p.1 p.2)).items S = r :=
      itemShare_ofPair _ _ _
    rw [coders_pair hd hx hi hm hn hne, e, Finset.sum_pair hne, Finset.card_pair hne, hv'] at h2
    rw [h2, corrected]
    norm_num [hq]
  have defined : ∀ p ∈ l, q p ^ 2 < 1 → ∃ z, fleissPi o' (compareS rt nT .default)
      (agrFormat kw data) false (.dict (ofPair data.items p.1 p.2)) = .ok (.value z) := by
    intro p hp hlt
    obtain ⟨hm, hn, hne⟩ := pair_mem hp
    have hdp := isDict_ofPair hd p.1 p.2
    obtain ⟨z', hz', -⟩ := hy p hp
    have hvp := valid_ofPair hv p.1 p.2
    have hg := coders_pair hd hx hi hm hn hne
    have hns := kappa_defined (data := .dict (ofPair data.items p.1 p.2)) (kw := agrFormat kw data) (m := p.1)
      (n := p.2) hdp hf (codedAs_ofPair hS _ _) hz' (by rw [hg]; simp)
      (by rw [hg]; simp) hne (by
        have e : boundaryShare (AgrData.dict (ofPair data.items p.1 p.2)).items S =
          boundaryShare data.items S := boundaryShare_ofPair _ _ _
        rw [e, ← ones p hp]
        exact hlt.ne)
    obtain ⟨yb, hyb⟩ := (C96_actual (data := .dict (ofPair data.items p.1 p.2)) (kw := agrFormat kw data)
      hdp hvp (.inl hf)).1.1 ⟨_, hz'⟩
    obtain ⟨out, hout⟩ := (C49_pi_partial (data := .dict (ofPair data.items p.1 p.2))
      (kw := agrFormat kw data) hdp (codersMatch_dict hdp) hvp hyb false).2 hns
    obtain ⟨out', hout'⟩ := ((C96_pi (data := .dict (ofPair data.items p.1 p.2))
      (kw := agrFormat kw data) hdp hvp (.inl hf)).1 false).2 ⟨_, hout⟩
    obtain ⟨z, -, -, rfl, -⟩ := C95_pi (data := .dict (ofPair data.items p.1 p.2))
      (kw := agrFormat kw data) hdp (codersMatch_dict hdp) hvp (.inl hf) hout'
    exact ⟨z, hout'⟩
  have h2 := combos_sum (fun m _ => r m) (o.order [] (getCoders data)) (o.nodup _ _)
  have h3 := combos_sum (fun _ _ => (1 : ℚ)) (o.order [] (getCoders data)) (o.nodup _ _)
  rw [order_toFinset] at h2 h3
  rw [pairs_const, mul_one, ← hl] at h3
  rw [← hl] at h2
  have hlen : (2 : ℚ) * l.length = (getCoders data).card * ((getCoders data).card - 1) := by
    rw [← h3]; simp; ring
  have hk := pairs_count hC
  have hlp : (0 : ℚ) < l.length := by rw [← hlen] at hk; linarith
  have hqs : (l.map q).sum = μ * l.length := by
    have h4 : (l.map (fun p => r p.1 + r p.2)).sum = 2 * (l.map q).sum := by
      rw [← List.sum_map_mul_left]
      exact congrArg List.sum (List.map_congr_left fun p _ => by simp only [hq]; ring)
    have h5 : ∑ m ∈ getCoders data, ∑ _n ∈ (getCoders data).erase m, r m =
        ((getCoders data).card - 1) * ∑ m ∈ getCoders data, r m := by
      rw [Finset.mul_sum]
      refine Finset.sum_congr rfl fun m hm => ?_
      rw [Finset.sum_const, nsmul_eq_mul, Finset.card_erase_of_mem hm, Nat.cast_sub (by omega)]
      push_cast; ring
    rw [h4, h5] at h2
    have hc0 : ((getCoders data).card : ℚ) ≠ 0 := fun h => by simp [h] at hk
    have h6 : μ * (getCoders data).card = ∑ m ∈ getCoders data, r m := by
      rw [hμ, div_mul_cancel₀ _ hc0]
    rw [← h6] at h2
    have : 2 * (l.map q).sum = 2 * (μ * l.length) := by
      rw [h2, show 2 * (μ * (l.length : ℚ)) = μ * (2 * l.length) by ring, hlen]; ring
    linarith
  set E : ℚ := (l.map (fun p => q p ^ 2)).sum / l.length with hE
  have he : (l.map (fun p => q p ^ 2)).sum = E * l.length := by rw [hE, div_mul_cancel₀ _ hlp.ne']
  have hμE : μ ^ 2 ≤ E := by
    rw [hE, le_div_iff₀ hlp]
    exact mean_squares l q hqs
  have sN : (l.map (fun p => y p - q p ^ 2)).sum = (x.val - E) * l.length := by
    have := lin_sum l y (fun p => q p ^ 2) 1 (-1) 0
    rw [hsum, he] at this
    rw [show (fun p : Name × Name => y p - q p ^ 2) =
      fun p => 1 * y p + -1 * (q p ^ 2) + 0 by funext p; ring, this]
    ring
  have sD : (l.map (fun p => 1 - q p ^ 2)).sum = (1 - E) * l.length := by
    have := lin_sum l y (fun p => q p ^ 2) 0 (-1) 1
    rw [he] at this
    rw [show (fun p : Name × Name => 1 - q p ^ 2) =
      fun p => 0 * y p + -1 * (q p ^ 2) + 1 by funext p; ring, this]
    ring
  have some : ∃ p ∈ l, q p ^ 2 < 1 := by
    by_contra hcon
    have hall : ∀ p ∈ l, q p = 1 := by
      intro p hp
      have : ¬ q p ^ 2 < 1 := fun h => hcon ⟨p, hp, h⟩
      nlinarith [qr p]
    have : (l.map q).sum = l.length := by
      rw [List.map_congr_left hall]; simp
    rw [this] at hqs
    have : μ = 1 := by
      have h9 : (μ - 1) * l.length = 0 := by linarith
      rcases mul_eq_zero.1 h9 with h | h
      · linarith
      · exact absurd h hlp.ne'
    rw [this] at hlt; norm_num at hlt
  have sD0 : 0 < (l.map (fun p => 1 - q p ^ 2)).sum := by
    obtain ⟨p, hp, hp1⟩ := some
    exact sum_pos_mem (fun p _ => sub_nonneg.2 (hle1 p)) hp (sub_pos.2 hp1)
  have hE1 : E < 1 := by
    rw [sD] at sD0
    by_contra hcon
    nlinarith
  have hw := sums_within l (fun p => y p - q p ^ 2) (fun p => 1 - q p ^ 2)
    (fun p _ => sub_nonneg.2 (hle1 p)) (fun p hp e => by
      obtain ⟨hm, hn, hne⟩ := pair_mem hp
      obtain ⟨z', hz', hv'⟩ := hy p hp
      obtain ⟨b1, b2⟩ := (ones p hp).1 (by linarith)
      have := full_agree hd hf hS hyB hm hn hne b1 b2 hz'
      rw [← hv', this]; linarith) sD0
  rw [sN, sD, mul_div_mul_right _ _ hlp.ne'] at hw
  have hmono : (x.val - E) / (1 - E) ≤ v.val := by
    rw [hval]
    exact (corrected_mono hx1 hμE hE1).1
  have low : ∃ p ∈ l, q p ^ 2 < 1 ∧ (y p - q p ^ 2) / (1 - q p ^ 2) ≤ (x.val - E) / (1 - E) := by
    rcases hw with hw | ⟨⟨p, hp, hp0, hlt'⟩, -⟩
    · obtain ⟨p, hp, hp1⟩ := some
      exact ⟨p, hp, hp1, (hw p hp (sub_pos.2 hp1)).le⟩
    · exact ⟨p, hp, by linarith, hlt'.le⟩
  obtain ⟨p, hp, hp1, hle⟩ := low
  obtain ⟨z, hz⟩ := defined p hp hp1
  obtain ⟨m1, m2, m3⟩ := pair_mem hp
  exact ⟨p.1, m1, p.2, m2, m3, _, ⟨z, hz, rfl⟩, by rw [pair p hp z hz]; exact hle.trans hmono⟩

end

/-- One item of three coders. -/
def exTrio (a b c : List ℤ) : Items :=
  [("x".toList, [("a".toList, mass a), ("b".toList, mass b), ("c".toList, mass c)])]

/-- C122 refuted for kappa with the default comparison: each two of the coders have kappa 0, all three
have 1/28. -/
theorem C122_kappa_refuted :
    let items := exTrio [1, 1, 1, 1] [2, 1, 1] [4]
    let kappa := fleissKappa ascN (compareB .ascending 2 .default) .mass false
    kappa (.dict items) = .ok (.value (.dec (1 / 28))) ∧
    kappa (.dict (ofPair items "a".toList "b".toList)) = .ok (.value (.dec 0)) ∧
    kappa (.dict (ofPair items "a".toList "c".toList)) = .ok (.value (.dec 0)) ∧
    kappa (.dict (ofPair items "b".toList "c".toList)) = .ok (.value (.dec 0)) := by
  decide +kernel

/-- C122 refuted for pi with either comparison: two coders place all boundaries, so that pi of these two
is not defined, and each of them has -1/3 with the third, who places none; all three have -1/5. -/
theorem C122_pi_refuted :
    let items := exTrio [1, 1, 1, 1] [1, 1, 1, 1] [4]
    ∀ cmp ∈ [compareB .ascending 2 .default, compareS .ascending 2 .default],
    fleissPi ascN cmp .mass false (.dict items) = .ok (.value (.dec (-1 / 5))) ∧
    fleissPi ascN cmp .mass false (.dict (ofPair items "a".toList "b".toList)) = .error .decimalInvalidOperation ∧
    fleissPi ascN cmp .mass false (.dict (ofPair items "a".toList "c".toList)) =
      .ok (.value (.dec (-1 / 3))) ∧
    fleissPi ascN cmp .mass false (.dict (ofPair items "b".toList "c".toList)) =
      .ok (.value (.dec (-1 / 3))) := by
  intro items cmp h
  simp only [List.mem_cons, List.not_mem_nil, or_false] at h
  rcases h with rfl | rfl <;> decide +kernel

/-- Two items of different sizes with the codings of three coders. -/
def exTwoSizes : Items :=
  [("x".toList, [("a".toList, mass [1, 1]), ("b".toList, mass [2]), ("c".toList, mass [1, 1])]),
    ("y".toList, [("a".toList, mass [2, 4, 1]), ("b".toList, mass [1, 1, 1, 1, 2, 1]),
      ("c".toList, mass [2, 1, 4])])]

/-- C122 refuted for the lower half of pi with the default comparison: every two of the coders have
23/407 or more, all three have 1/19.  Expected agreement counts both items alike, actual agreement each
by its boundaries. -/
theorem C122_pi_lower_refuted :
    let pi := fleissPi ascN (compareB .ascending 2 .default) .mass false
    pi (.dict exTwoSizes) = .ok (.value (.dec (1 / 19))) ∧
    pi (.dict (ofPair exTwoSizes "a".toList "b".toList)) = .ok (.value (.dec (23 / 407))) ∧
    pi (.dict (ofPair exTwoSizes "a".toList "c".toList)) = .ok (.value (.dec (1 / 10))) ∧
    pi (.dict (ofPair exTwoSizes "b".toList "c".toList)) = .ok (.value (.dec (23 / 407))) ∧
    (1 / 19 : ℚ) < 23 / 407 := by
  decide +kernel

/-- The theorems apply: three coders, and the values of all three and of each two. -/
example :
    let items := exTrio [1, 3] [4] [1, 1, 2]
    let all : AgrData := .dict items
    let ab : AgrData := .dict (ofPair items "a".toList "b".toList)
    let ac : AgrData := .dict (ofPair items "a".toList "c".toList)
    let bc : AgrData := .dict (ofPair items "b".toList "c".toList)
    IsDict items ∧ CodersMatch all ∧ AllValid (agrFormat .mass all) items ∧ agrFormat .mass all ≠ .sets ∧
    [all, ab, ac, bc].map (actualAgreement ascN (compareB .ascending 2 .default) .mass) =
      [.ok (.dec (1 / 5)), .ok (.dec 0), .ok (.dec (1 / 2)), .ok (.dec 0)] ∧
    [all, ab, ac, bc].map (actualAgreement ascN (compareS .ascending 2 .default) .mass) =
      [.ok (.dec (5 / 9)), .ok (.dec (2 / 3)), .ok (.dec (2 / 3)), .ok (.dec (1 / 3))] ∧
    [all, ab, ac, bc].map (fleissKappa ascN (compareS .ascending 2 .default) .mass false) =
      [.ok (.value (.dec (13 / 25))), .ok (.value (.dec (2 / 3))), .ok (.value (.dec (4 / 7))),
        .ok (.value (.dec (1 / 3)))] ∧
    [all, ab, ac, bc].map (fleissPi ascN (compareS .ascending 2 .default) .mass false) =
      [.ok (.value (.dec (1 / 2))), .ok (.value (.dec (23 / 35))), .ok (.value (.dec (5 / 9))),
        .ok (.value (.dec (1 / 4)))] := by
  have hd : IsDict (exTrio [1, 3] [4] [1, 1, 2]) := ⟨by decide +kernel, by decide +kernel⟩
  refine ⟨hd, codersMatch_dict hd, ?_, by decide, by decide +kernel, by decide +kernel,
    by decide +kernel, by decide +kernel⟩
  refine massItems_valid ?_
  simp only [massItems, exTrio, List.forall_mem_cons, List.not_mem_nil, false_implies, implies_true,
    and_true]
  exact ⟨⟨_, rfl, by decide, by decide⟩, ⟨_, rfl, by decide, by decide⟩, ⟨_, rfl, by decide, by decide⟩⟩

end SegEval.Props
