import Verif.Props.CopiesKappa

/-!
# C130: agreement by segmentation similarity when every coder occurs several times
-/

namespace SegEval.Props

open SegEval Spec

theorem plainCost_self (rt : Runtime) (nT : ℤ) (a : BString) : plainCost rt nT a a = 0 := by
  have he := bed_edits (le_of_eq rfl) ((C10_no_edits_iff rt a a rfl nT).2 rfl)
  rw [plainCost, ← he]
  simp [transpositionCredit, editCount]

theorem actualS_le_one {o : ClassOrder Name} {rt : Runtime} {nT : ℤ} {kw : BoundaryFormat} {data : AgrData}
    {S : Name → Name → BString} (hd : IsDict data.items) (hf : agrFormat kw data ≠ .sets)
    (hS : CodedAs (agrFormat kw data) data.items S) {x : PyNum}
    (h : actualAgreement o (compareS rt nT .default) kw data = .ok x) : x.val ≤ 1 := by
  have hb := rowBoth_all (o := o) (nT := nT) hd (valid_of_codedAs hS) (.inl hf : TypesShared rt kw data)
  obtain ⟨h1, h2⟩ := (actual_ok x).1 h
  obtain ⟨h3, h4⟩ := actualOfParts_ok (rowsNoFlt_segmentation hb) h2
  obtain ⟨_, u1, u2, u3⟩ := actual_unit (rowsAre_segmentation hb h1) (denSum_nil h3)
  rw [h4]; exact u2

section
variable {o o' : ClassOrder Name} {rt : Runtime} {nT : ℤ} {kw kw' : BoundaryFormat}
  {data data' : AgrData} {S S' : Name → Name → BString} {who : Name → Name} {k : ℕ}

/-- Pi by segmentation similarity has the chance agreement of pi by boundary similarity. -/
theorem piS_parts (hd : IsDict data.items) (hc : CodersMatch data) (hf : agrFormat kw data ≠ .sets)
    (hS : CodedAs (agrFormat kw data) data.items S) {v : PyNum}
    (h : fleissPi o (compareS rt nT .default) kw false data = .ok (.value v)) :
    ∃ x y aa : PyNum, ∃ ae : ℚ, actualAgreement o (compareS rt nT .default) kw data = .ok x ∧
      actualAgreement o (compareB rt nT .default) kw data = .ok y ∧
      fleissPi o (compareB rt nT .default) kw true data = .ok (.parts aa (.dec ae)) ∧ ae < 1 ∧
      v.val = (x.val - ae) / (1 - ae) := by
  obtain ⟨w, x, ae, hw, hx, hp, a0, a1, hv, -⟩ := C95_pi hd hc hS.valid (.inl hf) h
  cases hw
  have C := C96_pi (o := o) (nT := nT) hd hS.valid (.inl hf : TypesShared rt kw data)
  obtain ⟨out, hout⟩ := (C.1 false).1 ⟨_, h⟩
  obtain ⟨w', y, ae', hw', hy, hp', -⟩ := C48_pi hd hc hS.valid hout
  have e := C.2.1 _ _ _ _ hp' hp
  cases e
  exact ⟨x, y, _, _, hx, hy, hp', a1, hv⟩

/-- The same for kappa. -/
theorem kappaS_parts (hd : IsDict data.items) (hc : CodersMatch data) (hf : agrFormat kw data ≠ .sets)
    (hS : CodedAs (agrFormat kw data) data.items S) {v : PyNum}
    (h : fleissKappa o (compareS rt nT .default) kw false data = .ok (.value v)) :
    ∃ x y aa : PyNum, ∃ ae : ℚ, actualAgreement o (compareS rt nT .default) kw data = .ok x ∧
      actualAgreement o (compareB rt nT .default) kw data = .ok y ∧
      fleissKappa o (compareB rt nT .default) kw true data = .ok (.parts aa (.dec ae)) ∧ ae < 1 ∧
      v.val = (x.val - ae) / (1 - ae) := by
  obtain ⟨w, x, ae, hw, hx, hp, a0, a1, hv, -⟩ := C95_kappa hd hc hS.valid (.inl hf) h
  cases hw
  have C := C96_kappa (o := o) (nT := nT) hd hS.valid (.inl hf : TypesShared rt kw data)
  obtain ⟨out, hout⟩ := (C.1 false).1 ⟨_, h⟩
  obtain ⟨w', y, ae', hw', hy, hp', -⟩ := C48_kappa hd hc hS.valid hout
  have e := C.2.1 _ _ _ _ hp' hp
  cases e
  exact ⟨x, y, _, _, hx, hy, hp', a1, hv⟩

variable (H : Copied kw kw' data data' S S' who k)
include H

/-- C130: by segmentation similarity what is missing from actual agreement falls by a factor that depends
only on the number of coders and of their names. -/
theorem C130_similarity {x x' : PyNum}
    (h : actualAgreement o (compareS rt nT .default) kw data = .ok x)
    (h' : actualAgreement o' (compareS rt nT .default) kw' data' = .ok x') :
    (1 - x'.val) * (k * (getCoders data).card - 1) =
      (1 - x.val) * (k * ((getCoders data).card - 1)) := by
  obtain ⟨y, hy⟩ := (C96_actual H.dict (valid_of_codedAs H.coded) (.inl H.one)).1.1 ⟨x, h⟩
  obtain ⟨hC, hne⟩ := some_pair hy
  have e1 := actual_positions H.dict H.one H.coded h
  have e2 := actual_positions H.dict' H.one' H.coded' h'
  rw [H.labels] at e2
  simp only [H.same, overPairs] at e1 e2
  have f1 := copies_pairs H.known H.times (fun c d => ∑ l ∈ (data.items.map Prod.fst).toFinset,
    (((S l d).length : ℚ) - plainCost rt nT (S l c) (S l d)))
  have f2 := copies_pairs H.known H.times (fun _ d => ∑ l ∈ (data.items.map Prod.fst).toFinset,
    ((S l d).length : ℚ))
  simp only [plainCost_self, sub_zero] at f1
  rw [f1, f2] at e2
  have hL : 0 < ∑ c ∈ getCoders data, ∑ l ∈ (data.items.map Prod.fst).toFinset, ((S l c).length : ℚ) := by
    obtain ⟨it, hit⟩ := List.exists_mem_of_ne_nil _ hne
    have hl : it.1 ∈ (data.items.map Prod.fst).toFinset :=
      List.mem_toFinset.2 (List.mem_map_of_mem hit)
    obtain ⟨m, hm, n, hn, hmn⟩ := Finset.one_lt_card.1 hC
    obtain ⟨g1, ⟨t, p, g2⟩, -⟩ := pair_strings H.dict H.coded hy hl hm hn hmn H.one
    have hp : 0 < (S it.1 m).length := by
      rcases g2 with g2 | g2
      · have := typesAt_lt g2; omega
      · have := typesAt_lt g2; omega
    refine Finset.sum_pos' (fun c _ => Finset.sum_nonneg fun l _ => Nat.cast_nonneg _) ⟨m, hm,
      Finset.sum_pos' (fun l _ => Nat.cast_nonneg _) ⟨_, hl, by exact_mod_cast hp⟩⟩
  rw [erase_const' (getCoders data) (fun c => ∑ l ∈ (data.items.map Prod.fst).toFinset,
    ((S l c).length : ℚ))] at e1 e2
  generalize (∑ m ∈ getCoders data, ∑ n ∈ (getCoders data).erase m,
    ∑ l ∈ (data.items.map Prod.fst).toFinset,
      (((S l n).length : ℚ) - plainCost rt nT (S l m) (S l n))) = N at *
  generalize (∑ c ∈ getCoders data, ∑ l ∈ (data.items.map Prod.fst).toFinset,
    ((S l c).length : ℚ)) = L at *
  have hn : (2 : ℚ) ≤ (getCoders data).card := by exact_mod_cast hC
  generalize ((getCoders data).card : ℚ) = n at *
  have hk : (1 : ℚ) ≤ k := by exact_mod_cast H.pos
  generalize (k : ℚ) = κ at *
  have k0 : 0 < κ := by linarith
  have n1 : 0 < n - 1 := by linarith
  have hkn : 0 < κ * n - 1 := by nlinarith
  rw [eq_div_iff (mul_pos n1 hL).ne'] at e1
  rw [show κ ^ 2 * ((n - 1) * L) + κ * (κ - 1) * L = κ * ((κ * n - 1) * L) by ring,
    eq_div_iff (mul_pos k0 (mul_pos hkn hL)).ne'] at e2
  refine mul_left_cancel₀ (mul_pos k0 hL).ne' ?_
  linear_combination κ ^ 2 * e1 - e2

/-- C130: so does what is missing from pi. -/
theorem C130_similarity_pi (hc : CodersMatch data) (hc' : CodersMatch data') {v v' : PyNum}
    (h : fleissPi o (compareS rt nT .default) kw false data = .ok (.value v))
    (h' : fleissPi o' (compareS rt nT .default) kw' false data' = .ok (.value v')) :
    (1 - v'.val) * (k * (getCoders data).card - 1) =
      (1 - v.val) * (k * ((getCoders data).card - 1)) := by
  obtain ⟨x, y, aa, ae, hx, hy, hp, a1, hv⟩ := piS_parts H.dict hc H.one H.coded h
  obtain ⟨x', y', aa', ae', hx', hy', hp', a1', hv'⟩ := piS_parts H.dict' hc' H.one' H.coded' h'
  have e := C63_pi H.dict H.coded.valid (counts_codedAs H.coded) hp
  have e' := C63_pi H.dict' H.coded'.valid (counts_codedAs H.coded') hp'
  rw [meanRate_copies H hy hy', ← e] at e'
  have e' : ae' = ae := e'
  subst e'
  have key := C130_similarity H hx hx'
  have q : (1 : ℚ) - ae' ≠ 0 := by linarith
  rw [hv, hv', one_sub_div q, one_sub_div q, div_mul_eq_mul_div, div_mul_eq_mul_div]
  congr 1
  linear_combination key

/-- C130: and kappa rises unless it was 1. -/
theorem C130_similarity_kappa (hc : CodersMatch data) (hc' : CodersMatch data') {v v' : PyNum}
    (h : fleissKappa o (compareS rt nT .default) kw false data = .ok (.value v))
    (h' : fleissKappa o' (compareS rt nT .default) kw' false data' = .ok (.value v')) :
    v.val ≤ v'.val ∧ (v'.val = v.val ↔ k = 1 ∨ v.val = 1) := by
  obtain ⟨x, y, aa, ae, hx, hy, hp, a1, hv⟩ := kappaS_parts H.dict hc H.one H.coded h
  obtain ⟨x', y', aa', ae', hx', hy', hp', a1', hv'⟩ := kappaS_parts H.dict' hc' H.one' H.coded' h'
  have key := C130_similarity H hx hx'
  have hx1 := actualS_le_one H.dict H.one H.coded hx
  obtain ⟨hC, -⟩ := some_pair hy
  obtain ⟨e, e'⟩ := expected_copies H hy hy' hp hp'
  have e : ae = _ := e
  have e' : ae' = _ := e'
  have sq := squares_le (C := getCoders data) (share_range data.items S)
  generalize (∑ m ∈ getCoders data, ∑ n ∈ (getCoders data).erase m,
    boundaryShare data.items S m * boundaryShare data.items S n) = R at *
  generalize (∑ c ∈ getCoders data, boundaryShare data.items S c * boundaryShare data.items S c) = T at *
  have hn : (2 : ℚ) ≤ (getCoders data).card := by exact_mod_cast hC
  generalize ((getCoders data).card : ℚ) = n at *
  have hk : (1 : ℚ) ≤ k := by exact_mod_cast H.pos
  have hkk : (k : ℚ) = 1 ↔ k = 1 := by norm_cast
  rw [← hkk]
  generalize (k : ℚ) = κ at *
  have k0 : 0 < κ := by linarith
  have n0 : 0 < n := by linarith
  have n1 : 0 < n - 1 := by linarith
  have hkn : 0 < κ * n - 1 := by nlinarith
  rw [eq_div_iff (mul_pos n0 n1).ne'] at e
  rw [eq_div_iff (mul_pos (mul_pos k0 n0) hkn).ne'] at e'
  have hQ : 0 < 1 - T / n := by
    have : 2 * (T / n) ≤ 1 + ae := by
      rw [← mul_div_assoc, div_le_iff₀ n0]
      refine le_of_mul_le_mul_left ?_ n1
      linarith
    linarith
  have h2 : (1 - ae') * (κ * n - 1) = κ * (n - 1) * (1 - ae) + (κ - 1) * (1 - T / n) := by
    have hT : T / n * n = T := div_mul_cancel₀ _ n0.ne'
    refine mul_left_cancel₀ (mul_pos k0 n0).ne' ?_
    linear_combination κ ^ 2 * e - e' + κ * (κ - 1) * hT
  have E0 : 0 < 1 - ae := by linarith
  have E0' : 0 < 1 - ae' := by linarith
  have gap : (v'.val - v.val) * ((1 - ae) * (1 - ae') * (κ * n - 1)) =
      (1 - x.val) * ((κ - 1) * (1 - T / n)) := by
    have d1 : v.val * (1 - ae) = x.val - ae := by rw [hv, div_mul_cancel₀ _ E0.ne']
    have d2 : v'.val * (1 - ae') = x'.val - ae' := by rw [hv', div_mul_cancel₀ _ E0'.ne']
    linear_combination (1 - ae) * (κ * n - 1) * d2 - (1 - ae') * (κ * n - 1) * d1 -
      (1 - ae) * key + (1 - x.val) * h2
  have P : 0 < (1 - ae) * (1 - ae') * (κ * n - 1) := mul_pos (mul_pos E0 E0') hkn
  have v1 : v.val = 1 ↔ x.val = 1 := by rw [hv, div_eq_one_iff_eq E0.ne', sub_left_inj]
  constructor
  · have : 0 ≤ (v'.val - v.val) * ((1 - ae) * (1 - ae') * (κ * n - 1)) := by
      rw [gap]; exact mul_nonneg (by linarith) (mul_nonneg (by linarith) hQ.le)
    linarith [nonneg_of_mul_nonneg_left this P]
  · rw [v1]
    constructor
    · intro he
      rw [he, sub_self, zero_mul] at gap
      rcases mul_eq_zero.1 gap.symm with g | g
      · exact .inr (by linarith)
      · exact .inl (by linarith [(mul_eq_zero.1 g).resolve_right hQ.ne'])
    · intro he
      have : (1 - x.val) * ((κ - 1) * (1 - T / n)) = 0 := by
        rcases he with he | he <;> rw [he] <;> ring
      rw [this] at gap
      linarith [(mul_eq_zero.1 gap).resolve_right P.ne']

end

/-- Two coders under two names each: what is missing falls to two thirds. -/
example :
    actualAgreement ascN (compareS .ascending 2 .default) .mass (exCopies ["a".toList] ["b".toList]) =
      .ok (.dec (6 / 7)) ∧
    actualAgreement ascN (compareS .ascending 2 .default) .mass
      (exCopies ["a".toList, "c".toList] ["b".toList, "d".toList]) = .ok (.dec (19 / 21)) ∧
    (1 - 19 / 21 : ℚ) * (2 * 2 - 1) = (1 - 6 / 7) * (2 * (2 - 1)) := by
  refine ⟨by decide +kernel, by decide +kernel, by norm_num⟩

end SegEval.Props
