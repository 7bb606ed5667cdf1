import Verif.Lemmas.Chance
import Verif.Props.AgreementStep

/-!
# C120: pi and kappa against the published coefficients
-/

namespace SegEval.Props

open SegEval Spec

/-! ## Means over pairs -/

section
variable {C : Finset Name} {r : Name → ℚ}

theorem pairs_const (C : Finset Name) (c : ℚ) :
    ∑ m ∈ C, ∑ _n ∈ C.erase m, c = C.card * (C.card - 1) * c := by
  have := sum_pairs C (fun _ => c / 2)
  simp only [add_halves, Finset.sum_const, nsmul_eq_mul] at this ⊢
  rw [this]; ring

theorem pairs_count (hC : 2 ≤ C.card) : (0 : ℚ) < C.card * (C.card - 1) := by
  have : (2 : ℚ) ≤ C.card := by exact_mod_cast hC
  exact mul_pos (by linarith) (by linarith)

theorem meanProduct_nonneg (hC : 2 ≤ C.card) (h0 : ∀ m ∈ C, 0 ≤ r m) : 0 ≤ meanProduct C r :=
  div_nonneg (Finset.sum_nonneg fun m hm => Finset.sum_nonneg fun n hn =>
    mul_nonneg (h0 m hm) (h0 n (Finset.mem_of_mem_erase hn))) (pairs_count hC).le

theorem meanProduct_zero (hC : 2 ≤ C.card) (h0 : ∀ m ∈ C, 0 ≤ r m) :
    meanProduct C r = 0 ↔ ∀ m ∈ C, ∀ n ∈ C, m ≠ n → r m = 0 ∨ r n = 0 := by
  have hp : ∀ m ∈ C, ∀ n ∈ C.erase m, 0 ≤ r m * r n := fun m hm n hn =>
    mul_nonneg (h0 m hm) (h0 n (Finset.mem_of_mem_erase hn))
  rw [meanProduct, div_eq_zero_iff, or_iff_left (pairs_count hC).ne',
    Finset.sum_eq_zero_iff_of_nonneg fun m hm => Finset.sum_nonneg (hp m hm)]
  constructor
  · intro h m hm n hn hne
    have := (Finset.sum_eq_zero_iff_of_nonneg (hp m hm)).1 (h m hm) n (Finset.mem_erase.2 ⟨hne.symm, hn⟩)
    exact mul_eq_zero.1 this
  · intro h m hm
    exact Finset.sum_eq_zero fun n hn => mul_eq_zero.2
      (h m hm n (Finset.mem_of_mem_erase hn) (Finset.ne_of_mem_erase hn).symm)

/-- Both categories together are expected less than always, if one of them is and the other is used. -/
theorem expected_lt (hC : 2 ≤ C.card) (h0 : ∀ m ∈ C, 0 ≤ r m) (h1 : ∀ m ∈ C, r m ≤ 1)
    (hu : ∀ m ∈ C, ∀ n ∈ C, m ≠ n → 0 < r m + r n) (he : meanProduct C r < 1) :
    meanProduct C r + meanProduct C (fun m => 1 - r m) < 1 := by
  have hk := pairs_count hC
  have hex : ∃ m ∈ C, ∃ n ∈ C.erase m, r m * r n < 1 := by
    by_contra hcon
    push Not at hcon
    have : ∑ m ∈ C, ∑ _n ∈ C.erase m, (1 : ℚ) ≤ ∑ m ∈ C, ∑ n ∈ C.erase m, r m * r n :=
      Finset.sum_le_sum fun m hm => Finset.sum_le_sum fun n hn => hcon m hm n hn
    rw [pairs_const, mul_one] at this
    rw [meanProduct, div_lt_one hk] at he
    linarith
  rw [meanProduct, meanProduct, ← add_div, div_lt_one hk, ← Finset.sum_add_distrib]
  simp only [← Finset.sum_add_distrib]
  have hle : ∀ m ∈ C, ∀ n ∈ C.erase m, r m * r n + (1 - r m) * (1 - r n) ≤ 1 := by
    intro m hm n hn
    have hn' := Finset.mem_of_mem_erase hn
    have a1 := mul_nonneg (h0 m hm) (sub_nonneg.2 (h1 n hn'))
    have a2 := mul_nonneg (h0 n hn') (sub_nonneg.2 (h1 m hm))
    nlinarith
  have hone := pairs_const C 1
  rw [mul_one] at hone
  rw [← hone]
  obtain ⟨m, hm, n, hn, hlt⟩ := hex
  refine Finset.sum_lt_sum (fun m hm => Finset.sum_le_sum (hle m hm)) ⟨m, hm,
    Finset.sum_lt_sum (hle m hm) ⟨n, hn, ?_⟩⟩
  have hn' := Finset.mem_of_mem_erase hn
  have hs := hu m hm n hn' (Finset.ne_of_mem_erase hn).symm
  have a1 := mul_nonneg (h0 m hm) (sub_nonneg.2 (h1 n hn'))
  have a2 := mul_nonneg (h0 n hn') (sub_nonneg.2 (h1 m hm))
  refine lt_of_le_of_ne (hle m hm n hn) fun heq => ?_
  have e1 : r m * (1 - r n) = 0 := by nlinarith
  have e2 : r n * (1 - r m) = 0 := by nlinarith
  rcases mul_eq_zero.1 e1 with h | h <;> rcases mul_eq_zero.1 e2 with h' | h'
  · linarith
  · linarith
  · linarith
  · have : r m = 1 := by linarith
    have : r n = 1 := by linarith
    simp_all

end

section
variable {o : ClassOrder Name} {rt : Runtime} {nT : ℤ} {kw : BoundaryFormat} {data : AgrData}
  {S : Name → Name → BString}

theorem valid_of_codedAs (hS : CodedAs (agrFormat kw data) data.items S) :
    AllValid (agrFormat kw data) data.items := fun l m s h => ⟨_, hS l m s h⟩

theorem sum_counts (items : Items) (f : Name → ℕ) : 0 ≤ (items.map (fun it => (f it.1 : ℚ))).sum :=
  List.sum_nonneg (by simp only [List.mem_map]; rintro _ ⟨_, _, rfl⟩; exact Nat.cast_nonneg _)

theorem sum_counts_pos {items : Items} {it : Name × Codings} (hit : it ∈ items) {f : Name → ℕ}
    (hf : 0 < f it.1) : 0 < (items.map (fun it => (f it.1 : ℚ))).sum := by
  have : (f it.1 : ℚ) ≤ (items.map (fun it => (f it.1 : ℚ))).sum :=
    List.single_le_sum (by simp only [List.mem_map]; rintro _ ⟨_, _, rfl⟩; exact Nat.cast_nonneg _) _
      (List.mem_map.2 ⟨it, hit, rfl⟩)
  have h' : (0 : ℚ) < f it.1 := by exact_mod_cast hf
  linarith

theorem share_range (items : Items) (S : Name → Name → BString) (m : Name) :
    0 ≤ boundaryShare items S m ∧ boundaryShare items S m ≤ 1 := by
  have h0 := sum_counts items (fun l => placedAt (S l m))
  have h1 := sum_counts items (fun l => (S l m).length)
  unfold boundaryShare
  refine ⟨div_nonneg h0 h1, div_le_one_of_le₀ (List.sum_le_sum fun it _ => ?_) h1⟩
  have : placedAt (S it.1 m) ≤ (S it.1 m).length := by
    rw [placedAt]
    exact (Finset.card_filter_le _ _).trans (by simp)
  exact_mod_cast this

/-- Without a window actual agreement is observed agreement. -/
theorem actual_observed (hd : IsDict data.items) (hf : agrFormat kw data ≠ .sets)
    (hS : CodedAs (agrFormat kw data) data.items S) (hn : nT ≤ 1) {x : PyNum}
    (h : actualAgreement o (compareS rt nT .default) kw data = .ok x) :
    x.val = observed data.items (getCoders data) S := by
  obtain ⟨y, hy⟩ := (C96_actual hd (valid_of_codedAs hS) (.inl hf)).1.1 ⟨x, h⟩
  rw [actual_positions hd hf hS h, observed, pooled_pairs hd]
  congr 1 <;>
  · refine Finset.sum_congr rfl fun m hm => Finset.sum_congr rfl fun n hn' =>
      Finset.sum_congr rfl fun l hl => ?_
    obtain ⟨h1, h2, h3, h4⟩ := pair_strings hd hS hy hl hm (Finset.mem_of_mem_erase hn')
      (Finset.ne_of_mem_erase hn').symm hf
    first | exact same_cost h3 h4 h1 hn | simp only [h1]

/-- The counts of the code. -/
theorem counts_codedAs (hS : CodedAs (agrFormat kw data) data.items S) :
    Counts (agrFormat kw data) data.items (fun l m => boundaryCount (S l m))
      (fun l m n => (S l m).length * (identifyTypes (S l m) (S l n)).card) where
  placed label m s b hc hb := by rw [denotes_unique hb (toBString_denotes (hS _ _ _ hc))]
  potential label m n sm sn bm bn cm cn dm dn := by
    rw [denotes_unique dm (toBString_denotes (hS _ _ _ cm)),
      denotes_unique dn (toBString_denotes (hS _ _ _ cn))]
    exact ⟨_, fun t => mem_identifyTypes, rfl⟩

theorem other_coder {C : Finset Name} (hC : 2 ≤ C.card) {m : Name} (hm : m ∈ C) :
    ∃ n ∈ C, m ≠ n := by
  obtain ⟨n, hn⟩ := Finset.card_pos.1 (show 0 < (C.erase m).card by
    rw [Finset.card_erase_of_mem hm]; omega)
  exact ⟨n, Finset.mem_of_mem_erase hn, (Finset.ne_of_mem_erase hn).symm⟩

/-- For compared coders the counts are the numbers of boundaries and of positions. -/
theorem count_pair (hd : IsDict data.items) (hf : agrFormat kw data ≠ .sets)
    (hS : CodedAs (agrFormat kw data) data.items S) {y : PyNum}
    (hy : actualAgreement o (compareB rt nT .default) kw data = .ok y) {it : Name × Codings}
    (hit : it ∈ data.items) {m n : Name} (hm : m ∈ getCoders data) (hn : n ∈ getCoders data)
    (hne : m ≠ n) : boundaryCount (S it.1 m) = placedAt (S it.1 m) ∧
      (S it.1 m).length * (identifyTypes (S it.1 m) (S it.1 n)).card = (S it.1 m).length := by
  obtain ⟨h1, h2, h3, h4⟩ := pair_strings hd hS hy
    (List.mem_toFinset.2 (List.mem_map_of_mem hit)) hm hn hne hf
  exact ⟨(placed_count h3).symm, by rw [one_type_card h3 h4 h2, mul_one]⟩

theorem rate_share (hd : IsDict data.items) (hf : agrFormat kw data ≠ .sets)
    (hS : CodedAs (agrFormat kw data) data.items S) {y : PyNum}
    (hy : actualAgreement o (compareB rt nT .default) kw data = .ok y) {m : Name}
    (hm : m ∈ getCoders data) :
    coderRate data.items (getCoders data) (fun l m => boundaryCount (S l m))
      (fun l m n => (S l m).length * (identifyTypes (S l m) (S l n)).card) m =
      boundaryShare data.items S m := by
  obtain ⟨hC, -⟩ := some_pair hy
  have e1 : ∀ n ∈ (getCoders data).erase m,
      (data.items.map (fun it => ((boundaryCount (S it.1 m) : ℕ) : ℚ))).sum =
        (data.items.map (fun it => (placedAt (S it.1 m) : ℚ))).sum := fun n hn =>
    congrArg List.sum (List.map_congr_left fun it hit => by
      rw [(count_pair hd hf hS hy hit hm (Finset.mem_of_mem_erase hn)
        (Finset.ne_of_mem_erase hn).symm).1])
  have e2 : ∀ n ∈ (getCoders data).erase m, (data.items.map (fun it =>
      (((S it.1 m).length * (identifyTypes (S it.1 m) (S it.1 n)).card : ℕ) : ℚ))).sum =
        (data.items.map (fun it => ((S it.1 m).length : ℚ))).sum := fun n hn =>
    congrArg List.sum (List.map_congr_left fun it hit => by
      rw [(count_pair hd hf hS hy hit hm (Finset.mem_of_mem_erase hn)
        (Finset.ne_of_mem_erase hn).symm).2])
  rw [coderRate, Finset.sum_congr rfl e1, Finset.sum_congr rfl e2, Finset.sum_const, Finset.sum_const,
    nsmul_eq_mul, nsmul_eq_mul, mul_div_mul_left, boundaryShare]
  have : 0 < ((getCoders data).erase m).card := by rw [Finset.card_erase_of_mem hm]; omega
  exact_mod_cast this.ne'

/-- Of two coders one places a boundary. -/
theorem shares_pos (hd : IsDict data.items) (hf : agrFormat kw data ≠ .sets)
    (hS : CodedAs (agrFormat kw data) data.items S) {y : PyNum}
    (hy : actualAgreement o (compareB rt nT .default) kw data = .ok y) {m n : Name}
    (hm : m ∈ getCoders data) (hn : n ∈ getCoders data) (hne : m ≠ n) :
    0 < boundaryShare data.items S m + boundaryShare data.items S n := by
  obtain ⟨-, hne'⟩ := some_pair hy
  obtain ⟨it, hit⟩ := List.exists_mem_of_ne_nil _ hne'
  obtain ⟨h1, h2, h3, h4⟩ := pair_strings hd hS hy
    (List.mem_toFinset.2 (List.mem_map_of_mem hit)) hm hn hne hf
  have hu := uses_count h2
  have key : ∀ m, Only 1 (S it.1 m) → 0 < boundaryCount (S it.1 m) → 0 < boundaryShare data.items S m := by
    intro m ho hp
    rw [← placed_count ho] at hp
    have hpl : placedAt (S it.1 m) ≤ (S it.1 m).length := by
      rw [placedAt]
      exact (Finset.card_filter_le _ _).trans (by simp)
    have hlen : 0 < (S it.1 m).length := by omega
    have g1 := sum_counts_pos hit (f := fun l => placedAt (S l m)) hp
    have g2 := sum_counts_pos hit (f := fun l => (S l m).length) hlen
    exact div_pos g1 g2
  by_cases hz : 0 < boundaryCount (S it.1 m)
  · exact add_pos_of_pos_of_nonneg (key m h3 hz) (share_range _ _ _).1
  · exact add_pos_of_nonneg_of_pos (share_range _ _ _).1 (key n h4 (by omega))

/-- C120 (partial): without a window and measured with segmentation similarity, kappa is observed
agreement corrected for coders agreeing on boundaries by chance, but not for their agreeing on there being
none.  It is therefore never below the published coefficient, and equal to it exactly if the coders agree
completely or all but one place a boundary everywhere. -/
theorem C120_kappa_partial (hd : IsDict data.items) (hc : CodersMatch data)
    (hf : agrFormat kw data ≠ .sets) (hS : CodedAs (agrFormat kw data) data.items S) (hn : nT ≤ 1)
    {v : PyNum} (h : fleissKappa o (compareS rt nT .default) kw false data = .ok (.value v)) :
    v.val = corrected (observed data.items (getCoders data) S)
      (meanProduct (getCoders data) (boundaryShare data.items S)) ∧
    multiKappa data.items (getCoders data) S ≤ v.val ∧
    (multiKappa data.items (getCoders data) S = v.val ↔
      CompleteAgreement (agrFormat kw data) data.items ∨
      ∀ m ∈ getCoders data, ∀ n ∈ getCoders data, m ≠ n →
        boundaryShare data.items S m = 1 ∨ boundaryShare data.items S n = 1) := by
  have hv := valid_of_codedAs hS
  obtain ⟨v', x, ae, hout, hx, hp, h0, h1, hval, -, -, -⟩ := C95_kappa hd hc hv (.inl hf) h
  cases hout
  obtain ⟨-, hx1, hxc⟩ := C95_actual hd hc hv (.inl hf) hx
  obtain ⟨y, hy⟩ := (C96_actual hd hv (.inl hf)).1.1 ⟨x, hx⟩
  obtain ⟨g1, g2, -⟩ := C96_kappa (o := o) (rt := rt) (nT := nT) hd hv (.inl hf)
  obtain ⟨out, hB⟩ := (g1 false).1 ⟨_, h⟩
  obtain ⟨w, z, be, -, -, hpB, -⟩ := C48_kappa hd hc hv hB
  have hbe : be = ae := by have := g2 _ _ _ _ hpB hp; cases this; rfl
  have hae := C63_kappa hd hv (counts_codedAs hS) hpB
  simp only [PyNum.val] at hae
  have hae' : ae = meanProduct (getCoders data) (boundaryShare data.items S) := by
    rw [← hbe, hae, meanProduct, meanProduct]
    congr 1
    refine Finset.sum_congr rfl fun m hm => Finset.sum_congr rfl fun n hn' => ?_
    rw [rate_share hd hf hS hy hm, rate_share hd hf hS hy (Finset.mem_of_mem_erase hn')]
  have hob := actual_observed hd hf hS hn hx
  obtain ⟨hC, -⟩ := some_pair hy
  have r0 : ∀ m ∈ getCoders data, 0 ≤ boundaryShare data.items S m := fun m _ => (share_range _ _ m).1
  have r1 : ∀ m ∈ getCoders data, boundaryShare data.items S m ≤ 1 := fun m _ => (share_range _ _ m).2
  have q0 : ∀ m ∈ getCoders data, 0 ≤ 1 - boundaryShare data.items S m :=
    fun m hm => sub_nonneg.2 (r1 m hm)
  have hlt := expected_lt hC r0 r1 (fun m hm n hn' hne => shares_pos hd hf hS hy hm hn' hne)
    (hae' ▸ h1)
  have hnn := meanProduct_nonneg hC q0
  have hv1 : v.val = corrected (observed data.items (getCoders data) S)
      (meanProduct (getCoders data) (boundaryShare data.items S)) := by
    rw [hval, hob, hae', corrected]
  obtain ⟨k1, k2⟩ := corrected_mono (a := observed data.items (getCoders data) S) (by rw [← hob]; exact hx1)
    (show meanProduct (getCoders data) (boundaryShare data.items S) ≤ _ by linarith) hlt
  refine ⟨hv1, by rw [hv1]; exact k1, ?_⟩
  rw [hv1]
  refine k2.trans (or_congr (by rw [← hob]; exact hxc) ?_)
  rw [left_eq_add, meanProduct_zero hC q0]
  simp only [sub_eq_zero, eq_comm (a := (1 : ℚ))]

/-- Over items of one size the mean rate is the share of all coders together. -/
theorem mean_share (hd : IsDict data.items) (hf : agrFormat kw data ≠ .sets)
    (hS : CodedAs (agrFormat kw data) data.items S) {y : PyNum}
    (hy : actualAgreement o (compareB rt nT .default) kw data = .ok y) {size : ℕ}
    (hz : ∀ it ∈ data.items, ∀ m ∈ getCoders data, (S it.1 m).length = size) :
    meanRate data.items (getCoders data) (fun l m => boundaryCount (S l m))
      (fun l m n => (S l m).length * (identifyTypes (S l m) (S l n)).card) =
      jointShare data.items (getCoders data) S := by
  obtain ⟨hC, hne⟩ := some_pair hy
  have e1 : ∀ m ∈ getCoders data, ∀ n ∈ (getCoders data).erase m, (data.items.map (fun it =>
      ((boundaryCount (S it.1 m) : ℕ) : ℚ) /
        (((S it.1 m).length * (identifyTypes (S it.1 m) (S it.1 n)).card : ℕ) : ℚ))).sum =
      data.items.length * boundaryShare data.items S m := by
    intro m hm n hn
    have f1 : ∀ it ∈ data.items, ((boundaryCount (S it.1 m) : ℕ) : ℚ) /
        (((S it.1 m).length * (identifyTypes (S it.1 m) (S it.1 n)).card : ℕ) : ℚ) =
        (placedAt (S it.1 m) : ℚ) * (size : ℚ)⁻¹ := by
      intro it hit
      obtain ⟨g1, g2⟩ := count_pair hd hf hS hy hit hm (Finset.mem_of_mem_erase hn)
        (Finset.ne_of_mem_erase hn).symm
      rw [g1, g2, hz it hit m hm, div_eq_mul_inv]
    have f2 : (data.items.map (fun it => ((S it.1 m).length : ℚ))).sum = data.items.length * size := by
      rw [List.map_congr_left (g := fun _ => (size : ℚ)) fun it hit => by rw [hz it hit m hm]]
      simp
    have hl : (data.items.length : ℚ) ≠ 0 := by
      exact_mod_cast (List.length_pos_iff.2 hne).ne'
    rw [List.map_congr_left f1, List.sum_map_mul_right, boundaryShare, f2, ← mul_div_assoc,
      mul_div_mul_left _ _ hl, div_eq_mul_inv]
  have hl : (data.items.length : ℚ) ≠ 0 := by
    exact_mod_cast (List.length_pos_iff.2 hne).ne'
  have e2 : ∀ m ∈ getCoders data, ∑ n ∈ (getCoders data).erase m, (data.items.map (fun it =>
      ((boundaryCount (S it.1 m) : ℕ) : ℚ) /
        (((S it.1 m).length * (identifyTypes (S it.1 m) (S it.1 n)).card : ℕ) : ℚ))).sum =
      ((getCoders data).card - 1) * data.items.length * boundaryShare data.items S m := by
    intro m hm
    rw [Finset.sum_congr rfl (e1 m hm), Finset.sum_const, nsmul_eq_mul, Finset.card_erase_of_mem hm,
      Nat.cast_sub (by omega)]
    push_cast; ring
  have hk := pairs_count hC
  have hc0 : ((getCoders data).card : ℚ) ≠ 0 := fun h => by simp [h] at hk
  have hc1 : ((getCoders data).card : ℚ) - 1 ≠ 0 := fun h => by simp [h] at hk
  rw [meanRate, jointShare, Finset.sum_congr rfl e2, ← Finset.mul_sum]
  field_simp

/-- C120 (partial): the same for pi over items of one size.  It exceeds the published coefficient unless
the coders agree completely.  With items of different sizes it can be below (`C120_sizes`). -/
theorem C120_pi_partial (hd : IsDict data.items) (hc : CodersMatch data)
    (hf : agrFormat kw data ≠ .sets) (hS : CodedAs (agrFormat kw data) data.items S) (hn : nT ≤ 1)
    {size : ℕ} (hz : ∀ it ∈ data.items, ∀ m ∈ getCoders data, (S it.1 m).length = size)
    {v : PyNum} (h : fleissPi o (compareS rt nT .default) kw false data = .ok (.value v)) :
    v.val = corrected (observed data.items (getCoders data) S)
      (jointShare data.items (getCoders data) S ^ 2) ∧
    multiPi data.items (getCoders data) S ≤ v.val ∧
    (multiPi data.items (getCoders data) S = v.val ↔
      CompleteAgreement (agrFormat kw data) data.items) := by
  have hv := valid_of_codedAs hS
  obtain ⟨v', x, ae, hout, hx, hp, h0, h1, hval, -, -, -⟩ := C95_pi hd hc hv (.inl hf) h
  cases hout
  obtain ⟨-, hx1, hxc⟩ := C95_actual hd hc hv (.inl hf) hx
  obtain ⟨y, hy⟩ := (C96_actual hd hv (.inl hf)).1.1 ⟨x, hx⟩
  obtain ⟨g1, g2, -⟩ := C96_pi (o := o) (rt := rt) (nT := nT) hd hv (.inl hf)
  obtain ⟨out, hB⟩ := (g1 false).1 ⟨_, h⟩
  obtain ⟨w, z, be, -, -, hpB, -⟩ := C48_pi hd hc hv hB
  have hbe : be = ae := by have := g2 _ _ _ _ hpB hp; cases this; rfl
  have hae := C63_pi hd hv (counts_codedAs hS) hpB
  simp only [PyNum.val] at hae
  rw [mean_share hd hf hS hy hz, hbe] at hae
  have hob := actual_observed hd hf hS hn hx
  obtain ⟨hC, -⟩ := some_pair hy
  set p := jointShare data.items (getCoders data) S with hpdef
  have hcpos : (0 : ℚ) < (getCoders data).card := by exact_mod_cast (by omega : 0 < (getCoders data).card)
  have p0 : 0 < p := by
    rw [hpdef, jointShare]
    refine div_pos ?_ hcpos
    obtain ⟨m, hm⟩ := Finset.card_pos.1 (show 0 < (getCoders data).card by omega)
    obtain ⟨n, hn', hne⟩ := other_coder hC hm
    have hs := shares_pos hd hf hS hy hm hn' hne
    have : boundaryShare data.items S m + boundaryShare data.items S n ≤
        ∑ m ∈ getCoders data, boundaryShare data.items S m := by
      rw [← Finset.sum_pair hne]
      exact Finset.sum_le_sum_of_subset_of_nonneg (by
        intro k hk; rcases Finset.mem_insert.1 hk with rfl | hk
        · exact hm
        · rw [Finset.mem_singleton.1 hk]; exact hn') fun k _ _ => (share_range _ _ k).1
    linarith
  have p1 : p < 1 := by
    by_contra hcon
    push Not at hcon
    nlinarith
  have hv1 : v.val = corrected (observed data.items (getCoders data) S) (p ^ 2) := by
    rw [hval, hob, hae, corrected]
  obtain ⟨k1, k2⟩ := corrected_mono (a := observed data.items (getCoders data) S) (e := p ^ 2)
    (e' := p ^ 2 + (1 - p) ^ 2) (by rw [← hob]; exact hx1) (by nlinarith [sq_nonneg (1 - p)])
    (by nlinarith [mul_pos p0 (sub_pos.2 p1)])
  refine ⟨hv1, by rw [hv1]; exact k1, ?_⟩
  rw [hv1]
  refine k2.trans ?_
  rw [or_iff_left, ← hob]
  · exact hxc
  · intro he
    have : (1 - p) ^ 2 = 0 := by linarith
    have := pow_eq_zero_iff (two_ne_zero) |>.1 this
    linarith

end

/-! ## Two coders -/

section
variable {a b : BString}

/-- The number of positions at which the categories are as given. -/
theorem table_counts (hl : a.length = b.length) :
    placedAt a = categoryCount a b true true + categoryCount a b true false ∧
    placedAt b = categoryCount a b true true + categoryCount a b false true ∧
    sameAt a b = categoryCount a b true true + categoryCount a b false false ∧
    a.length = categoryCount a b true true + categoryCount a b true false +
      categoryCount a b false true + categoryCount a b false false := by
  have key : ∀ q : ℕ → Prop, ∀ [DecidablePred q], ((Finset.range a.length).filter q).card =
      ∑ p ∈ Finset.range a.length, if q p then 1 else 0 := fun q _ => Finset.card_filter _ _
  have hlen : a.length = ∑ _p ∈ Finset.range a.length, 1 := by simp
  refine ⟨?_, ?_, ?_, ?_⟩
  · simp only [placedAt, categoryCount, key, ← Finset.sum_add_distrib]
    refine Finset.sum_congr rfl fun p _ => ?_
    by_cases h1 : typesAt a p = ∅ <;> by_cases h2 : typesAt b p = ∅ <;> simp [h1, h2]
  · simp only [placedAt, categoryCount, ← hl, key, ← Finset.sum_add_distrib]
    refine Finset.sum_congr rfl fun p _ => ?_
    by_cases h1 : typesAt a p = ∅ <;> by_cases h2 : typesAt b p = ∅ <;> simp [h1, h2]
  · simp only [sameAt, categoryCount, key, ← Finset.sum_add_distrib]
    refine Finset.sum_congr rfl fun p _ => ?_
    by_cases h1 : typesAt a p = ∅ <;> by_cases h2 : typesAt b p = ∅ <;> simp [h1, h2]
  · conv_lhs => rw [hlen]
    simp only [categoryCount, key, ← Finset.sum_add_distrib]
    refine Finset.sum_congr rfl fun p _ => ?_
    by_cases h1 : typesAt a p = ∅ <;> by_cases h2 : typesAt b p = ∅ <;> simp [h1, h2]

theorem sameAt_comm (hl : a.length = b.length) : sameAt a b = sameAt b a := by
  rw [sameAt, sameAt, hl]
  congr 1
  exact Finset.filter_congr fun p _ => Iff.comm

end

/-- For two coders the coefficient that kappa is measured against is Cohen's, of the table of their
categories over all items. -/
theorem multiKappa_cohen (items : Items) (S : Name → Name → BString) {a b : Name} (hab : a ≠ b)
    (hl : ∀ it ∈ items, (S it.1 a).length = (S it.1 b).length)
    (hpos : ∃ it ∈ items, 0 < (S it.1 a).length) :
    multiKappa items {a, b} S = cohen (categoryTable items S a b true true)
      (categoryTable items S a b true false) (categoryTable items S a b false true)
      (categoryTable items S a b false false) := by
  have hcast : ∀ x y, ((categoryTable items S a b x y : ℕ) : ℚ) =
      (items.map (fun it => (categoryCount (S it.1 a) (S it.1 b) x y : ℚ))).sum := by
    intro x y
    rw [categoryTable, Nat.cast_list_sum, List.map_map]
    rfl
  have hadd : ∀ f g h : Name → ℕ, (∀ it ∈ items, f it.1 = g it.1 + h it.1) →
      (items.map (fun it => (f it.1 : ℚ))).sum =
        (items.map (fun it => (g it.1 : ℚ))).sum + (items.map (fun it => (h it.1 : ℚ))).sum := by
    intro f g h hfg
    rw [← List.sum_map_add]
    exact congrArg List.sum (List.map_congr_left fun it hit => by rw [hfg it hit]; push_cast; rfl)
  have h1 := hadd (fun l => placedAt (S l a)) (fun l => categoryCount (S l a) (S l b) true true)
    (fun l => categoryCount (S l a) (S l b) true false) fun it hit => (table_counts (hl it hit)).1
  have h2 := hadd (fun l => placedAt (S l b)) (fun l => categoryCount (S l a) (S l b) true true)
    (fun l => categoryCount (S l a) (S l b) false true) fun it hit => (table_counts (hl it hit)).2.1
  have h3 := hadd (fun l => sameAt (S l a) (S l b)) (fun l => categoryCount (S l a) (S l b) true true)
    (fun l => categoryCount (S l a) (S l b) false false) fun it hit => (table_counts (hl it hit)).2.2.1
  have h4 := hadd (fun l => (S l a).length) (fun l => placedAt (S l a))
    (fun l => categoryCount (S l a) (S l b) false true + categoryCount (S l a) (S l b) false false) fun it hit => by
      have := table_counts (hl it hit); omega
  have h5 := hadd (fun l => categoryCount (S l a) (S l b) false true + categoryCount (S l a) (S l b) false false)
    (fun l => categoryCount (S l a) (S l b) false true) (fun l => categoryCount (S l a) (S l b) false false)
    fun it hit => rfl
  have h6 : (items.map (fun it => (sameAt (S it.1 b) (S it.1 a) : ℚ))).sum =
      (items.map (fun it => (sameAt (S it.1 a) (S it.1 b) : ℚ))).sum :=
    congrArg List.sum (List.map_congr_left fun it hit => by rw [sameAt_comm (hl it hit)])
  have h7 : (items.map (fun it => ((S it.1 b).length : ℚ))).sum =
      (items.map (fun it => ((S it.1 a).length : ℚ))).sum :=
    congrArg List.sum (List.map_congr_left fun it hit => by rw [hl it hit])
  obtain ⟨it, hit, hp⟩ := hpos
  have h8 := sum_counts_pos hit (f := fun l => (S l a).length) hp
  have ea : ({a, b} : Finset Name).erase a = {b} := by
    ext k; simp only [Finset.mem_erase, Finset.mem_insert, Finset.mem_singleton]
    constructor
    · rintro ⟨h, h' | h'⟩
      · exact absurd h' h
      · exact h'
    · rintro rfl; exact ⟨hab.symm, .inr rfl⟩
  have eb : ({a, b} : Finset Name).erase b = {a} := by
    ext k; simp only [Finset.mem_erase, Finset.mem_insert, Finset.mem_singleton]
    constructor
    · rintro ⟨h, h' | h'⟩
      · exact h'
      · exact absurd h' h
    · rintro rfl; exact ⟨hab, .inl rfl⟩
  simp only [multiKappa, cohen, observed, pooled, meanProduct, Finset.sum_pair hab, ea, eb,
    Finset.sum_singleton, Finset.card_pair hab, boundaryShare, h6, h7, hcast]
  rw [h5] at h4
  rw [h1] at h4
  rw [h4] at h8
  rw [h1, h2, h3, h4]
  generalize (items.map (fun it => (categoryCount (S it.1 a) (S it.1 b) true true : ℚ))).sum = tt at *
  generalize (items.map (fun it => (categoryCount (S it.1 a) (S it.1 b) true false : ℚ))).sum = tf at *
  generalize (items.map (fun it => (categoryCount (S it.1 a) (S it.1 b) false true : ℚ))).sum = ft at *
  generalize (items.map (fun it => (categoryCount (S it.1 a) (S it.1 b) false false : ℚ))).sum = ff at *
  have hn : tt + tf + ft + ff ≠ 0 := by linarith
  rw [show tt + tf + (ft + ff) = tt + tf + ft + ff by ring] at h8 ⊢
  congr 1
  · field_simp
  · push_cast
    field_simp
    ring

/-- Two coders of one document of four units. -/
def exChance : AgrData :=
  .dict [("x".toList, [("a".toList, mass [2, 2]), ("b".toList, mass [1, 1, 2])])]

/-- What they placed. -/
def exChanceS (_ m : Name) : BString := if m = "a".toList then [∅, {1}, ∅] else [{1}, {1}, ∅]

/-- Their agreement meets the hypotheses of `C120_kappa_partial` and `C120_pi_partial`. -/
example : IsDict exChance.items ∧ CodersMatch exChance ∧ CodedAs .mass exChance.items exChanceS ∧
    (∀ it ∈ exChance.items, ∀ m ∈ getCoders exChance, (exChanceS it.1 m).length = 3) := by
  have hd : IsDict exChance.items := by
    refine ⟨by decide, fun it hit => ?_⟩
    simp only [exChance, AgrData.items, List.mem_cons, List.not_mem_nil, or_false] at hit
    subst hit; decide
  refine ⟨hd, codersMatch_dict hd, ?_, by decide +kernel⟩
  rintro l m seg ⟨cs, h1, h2⟩
  have h3 := dictGet_mem h1
  simp only [exChance, AgrData.items, List.mem_cons, List.not_mem_nil, or_false, Prod.mk.injEq] at h3
  obtain ⟨rfl, rfl⟩ := h3
  have h4 := dictGet_mem h2
  simp only [List.mem_cons, List.not_mem_nil, or_false, Prod.mk.injEq] at h4
  rcases h4 with ⟨rfl, rfl⟩ | ⟨rfl, rfl⟩
  · exact massSeg_denotes _ (by simp) (by decide) _ (by decide +kernel)
  · exact massSeg_denotes _ (by simp) (by decide) _ (by decide +kernel)

/-- C120 refuted: kappa of two coders is not Cohen's kappa and pi not Scott's pi.  The two coders above
agree on two of three positions; without a window kappa is 4/7 where Cohen's is 2/5, and pi is 5/9 where
Scott's is 1/3.  With the default comparison kappa is 5/14. -/
theorem C120_refuted :
    fleissKappa ascN (compareS .ascending 1 .default) .mass false exChance = .ok (.value (.dec (4 / 7))) ∧
    multiKappa exChance.items (getCoders exChance) exChanceS = 2 / 5 ∧ cohen 1 0 1 1 = 2 / 5 ∧
    fleissPi ascN (compareS .ascending 1 .default) .mass false exChance = .ok (.value (.dec (5 / 9))) ∧
    multiPi exChance.items (getCoders exChance) exChanceS = 1 / 3 ∧
    fleissKappa ascN (compareB .ascending 2 .default) .mass false exChance = .ok (.value (.dec (5 / 14))) := by
  refine ⟨?_, ?_, ?_, ?_, ?_, ?_⟩ <;> decide +kernel

/-- Two coders of three documents of two units and one of eleven. -/
def exSizes : AgrData :=
  .dict [("x".toList, [("a".toList, mass [1, 1]), ("b".toList, mass [1, 1])]),
    ("y".toList, [("a".toList, mass [1, 1]), ("b".toList, mass [1, 1])]),
    ("z".toList, [("a".toList, mass [1, 1]), ("b".toList, mass [1, 1])]),
    ("w".toList, [("a".toList, mass [1, 10]), ("b".toList, mass [10, 1])])]

/-- What they placed. -/
def exSizesS (l m : Name) : BString :=
  if l = "w".toList then
    if m = "a".toList then {1} :: List.replicate 9 ∅ else List.replicate 9 ∅ ++ [{1}]
  else [{1}]

/-- C120: with items of different sizes pi can also be below the published coefficient, since it takes the
mean of the shares of the items. -/
theorem C120_sizes :
    ∃ v : ℚ, fleissPi ascN (compareS .ascending 1 .default) .mass false exSizes = .ok (.value (.dec v)) ∧
    v < multiPi exSizes.items (getCoders exSizes) exSizesS :=
  ⟨5107 / 8307, by decide +kernel, by decide +kernel⟩

end SegEval.Props
