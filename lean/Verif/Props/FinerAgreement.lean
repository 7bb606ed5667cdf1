import Verif.Props.FinerScaled
import Verif.Props.Chance
import Verif.Spec.FinerAgreement

/-!
# C127: agreement in smaller units
-/

namespace SegEval.Props

open SegEval Spec

section
variable {rt : Runtime} {nT : ℤ} {m : ℕ} {a b : BString}

theorem plain_scaled (hm : 1 ≤ m) (hl : a.length = b.length) (hs : SharedTypes rt a b) :
    plainCredit rt (m * nT) (finer m ∅ a) (finer m ∅ b) = plainCredit rt nT a b ∧
    plainSize rt (m * nT) (finer m ∅ a) (finer m ∅ b) = plainSize rt nT a b := by
  obtain ⟨p1, p2, p3⟩ := edits_scaled (nT := nT) hm hl hs
  have hc : transpositionCredit (m * nT)
      (editsOf rt (finer m ∅ a) (finer m ∅ b) (m * nT)).transpositions =
      transpositionCredit nT (editsOf rt a b nT).transpositions := by
    rw [transpositionCredit, transpositionCredit, (p1.map _).sum_eq, List.map_map]
    congr 2
    funext t
    simp only [Function.comp_apply, finerT_cost hm]
  constructor
  · rw [plainCredit, plainCredit, hc, matchCount_finer hm]
  · rw [plainSize, plainSize, (cost_scaled hm hl hs 0 0).2, matchCount_finer hm]

theorem boundaryCount_finer (hm : 1 ≤ m) (a : BString) : boundaryCount (finer m ∅ a) = boundaryCount a := by
  rw [← boundaries_card, ← boundaries_card, boundaries_finer hm,
    Finset.card_image_of_injective _ (finerAt_injective hm)]

theorem identifyTypes_finer (hm : 1 ≤ m) (a b : BString) :
    identifyTypes (finer m ∅ a) (finer m ∅ b) = identifyTypes a b := by
  ext t
  rw [mem_identifyTypes, mem_identifyTypes, usesType_finer hm]

theorem length_finer_le (hm : 1 ≤ m) (a : BString) :
    a.length ≤ (finer m ∅ a).length ∧ (2 ≤ m → a.length < (finer m ∅ a).length) := by
  have h := finer_length (d := (∅ : Finset ℤ)) hm a
  constructor
  · have : 1 * (a.length + 1) ≤ m * (a.length + 1) := Nat.mul_le_mul_right _ hm
    omega
  · intro h2
    have : 2 * (a.length + 1) ≤ m * (a.length + 1) := Nat.mul_le_mul_right _ h2
    omega

end

section
variable {o o' : ClassOrder Name} {rt : Runtime} {nT : ℤ} {kw kw' : BoundaryFormat}
  {data data' : AgrData} {S : Name → Name → BString} {m : ℕ}

theorem label_sum {items : Items} (hd : IsDict items) (G : Name → ℚ) :
    (items.map (fun it => G it.1)).sum = ∑ l ∈ (items.map Prod.fst).toFinset, G l := by
  rw [List.sum_toFinset _ hd.1, List.map_map]; rfl

theorem label_count {items : Items} (hd : IsDict items) :
    items.length = (items.map Prod.fst).toFinset.card := by
  rw [List.toFinset_card_of_nodup hd.1, List.length_map]

variable {S' : Name → Name → BString} (H : SmallerUnits kw kw' data data' S S' m)
include H

/-- C127: counted in smaller units, with `n_t` counted in them too, actual agreement is unchanged. -/
theorem C127_actual {x x' : PyNum}
    (h : actualAgreement o (compareB rt nT .default) kw data = .ok x)
    (h' : actualAgreement o' (compareB rt (m * nT) .default) kw' data' = .ok x') :
    x'.val = x.val := by
  have e1 := C63_actual H.dict H.coded.valid (.inl H.one) (scores_plain H.one H.coded) h
  have e2 := C63_actual H.dict' H.coded'.valid (.inl H.one') (scores_plain H.one' H.coded') h'
  rw [pooled_pairs H.dict] at e1
  rw [pooled_pairs H.dict', H.coders, H.labels] at e2
  have key : ∀ l ∈ (data.items.map Prod.fst).toFinset, ∀ c ∈ getCoders data,
      ∀ d ∈ (getCoders data).erase c,
      plainCredit rt (m * nT) (S' l c) (S' l d) = plainCredit rt nT (S l c) (S l d) ∧
      plainSize rt (m * nT) (S' l c) (S' l d) = plainSize rt nT (S l c) (S l d) := by
    intro l hl c hcc d hdd
    obtain ⟨h1, -, h3, h4⟩ := pair_strings H.dict H.coded h hl hcc (Finset.mem_of_mem_erase hdd)
      (Finset.ne_of_mem_erase hdd).symm H.one
    rw [H.finer, H.finer]
    exact plain_scaled H.pos h1 (only_shared h3 h4 (one_small rt))
  have k1 : overPairs (getCoders data) (data.items.map Prod.fst).toFinset
      (fun l c d => plainCredit rt (m * nT) (S' l c) (S' l d)) =
      overPairs (getCoders data) (data.items.map Prod.fst).toFinset
      (fun l c d => plainCredit rt nT (S l c) (S l d)) :=
    Finset.sum_congr rfl fun c hcc => Finset.sum_congr rfl fun d hdd =>
      Finset.sum_congr rfl fun l hl => (key l hl c hcc d hdd).1
  have k2 : overPairs (getCoders data) (data.items.map Prod.fst).toFinset
      (fun l c d => plainSize rt (m * nT) (S' l c) (S' l d)) =
      overPairs (getCoders data) (data.items.map Prod.fst).toFinset
      (fun l c d => plainSize rt nT (S l c) (S l d)) :=
    Finset.sum_congr rfl fun c hcc => Finset.sum_congr rfl fun d hdd =>
      Finset.sum_congr rfl fun l hl => (key l hl c hcc d hdd).2
  rw [e1, e2, k1, k2]

/-- The rates at which one coder places boundaries in one item. -/
theorem rate_finer {y : PyNum} (hy : actualAgreement o (compareB rt nT .default) kw data = .ok y)
    {l c d : Name} (hl : l ∈ (data.items.map Prod.fst).toFinset) (hc : c ∈ getCoders data)
    (hd : d ∈ (getCoders data).erase c) :
    boundaryCount (S' l c) = boundaryCount (S l c) ∧
    0 < (S l c).length * (identifyTypes (S l c) (S l d)).card ∧
    (S l c).length * (identifyTypes (S l c) (S l d)).card ≤
      (S' l c).length * (identifyTypes (S' l c) (S' l d)).card ∧
    (2 ≤ m → (S l c).length * (identifyTypes (S l c) (S l d)).card <
      (S' l c).length * (identifyTypes (S' l c) (S' l d)).card) ∧
    0 < boundaryCount (S l c) + boundaryCount (S l d) := by
  obtain ⟨h1, h2, h3, h4⟩ := pair_strings H.dict H.coded hy hl hc (Finset.mem_of_mem_erase hd)
    (Finset.ne_of_mem_erase hd).symm H.one
  rw [H.finer, H.finer, identifyTypes_finer H.pos, boundaryCount_finer H.pos, one_type_card h3 h4 h2,
    mul_one, mul_one]
  obtain ⟨l1, l2⟩ := length_finer_le H.pos (S l c)
  refine ⟨rfl, ?_, l1, l2, uses_count h2⟩
  obtain ⟨t, p, hp⟩ := h2
  rcases hp with hp | hp
  · have := typesAt_lt hp; omega
  · have := typesAt_lt hp; omega

theorem meanRate_finer {y : PyNum} (hy : actualAgreement o (compareB rt nT .default) kw data = .ok y) :
    0 ≤ meanRate data'.items (getCoders data') (fun l c => boundaryCount (S' l c))
      (fun l c d => (S' l c).length * (identifyTypes (S' l c) (S' l d)).card) ∧
    meanRate data'.items (getCoders data') (fun l c => boundaryCount (S' l c))
      (fun l c d => (S' l c).length * (identifyTypes (S' l c) (S' l d)).card) ≤
    meanRate data.items (getCoders data) (fun l c => boundaryCount (S l c))
      (fun l c d => (S l c).length * (identifyTypes (S l c) (S l d)).card) ∧
    (2 ≤ m → meanRate data'.items (getCoders data') (fun l c => boundaryCount (S' l c))
      (fun l c d => (S' l c).length * (identifyTypes (S' l c) (S' l d)).card) <
    meanRate data.items (getCoders data) (fun l c => boundaryCount (S l c))
      (fun l c d => (S l c).length * (identifyTypes (S l c) (S l d)).card)) := by
  obtain ⟨hC, hne⟩ := some_pair hy
  have lab : ∀ c d : Name, (data'.items.map (fun it => (boundaryCount (S' it.1 c) : ℚ) /
      ((S' it.1 c).length * (identifyTypes (S' it.1 c) (S' it.1 d)).card : ℕ))).sum =
      ∑ l ∈ (data.items.map Prod.fst).toFinset, (boundaryCount (S' l c) : ℚ) /
      ((S' l c).length * (identifyTypes (S' l c) (S' l d)).card : ℕ) := by
    intro c d
    rw [← H.labels]
    exact label_sum H.dict' (fun l => (boundaryCount (S' l c) : ℚ) /
      ((S' l c).length * (identifyTypes (S' l c) (S' l d)).card : ℕ))
  have lab0 : ∀ c d : Name, (data.items.map (fun it => (boundaryCount (S it.1 c) : ℚ) /
      ((S it.1 c).length * (identifyTypes (S it.1 c) (S it.1 d)).card : ℕ))).sum =
      ∑ l ∈ (data.items.map Prod.fst).toFinset, (boundaryCount (S l c) : ℚ) /
      ((S l c).length * (identifyTypes (S l c) (S l d)).card : ℕ) := fun c d =>
    label_sum H.dict (fun l => (boundaryCount (S l c) : ℚ) /
      ((S l c).length * (identifyTypes (S l c) (S l d)).card : ℕ))
  have hlen : data'.items.length = data.items.length := by
    rw [label_count H.dict', label_count H.dict, H.labels]
  have hk : (0 : ℚ) < (getCoders data).card * ((getCoders data).card - 1) * data.items.length :=
    mul_pos (pairs_count hC) (by exact_mod_cast List.length_pos_iff.2 hne)
  have each : ∀ c ∈ getCoders data, ∀ d ∈ (getCoders data).erase c,
      ∀ l ∈ (data.items.map Prod.fst).toFinset,
      (boundaryCount (S' l c) : ℚ) / ((S' l c).length * (identifyTypes (S' l c) (S' l d)).card : ℕ) ≤
      (boundaryCount (S l c) : ℚ) / ((S l c).length * (identifyTypes (S l c) (S l d)).card : ℕ) := by
    intro c hc d hd l hl
    obtain ⟨r1, r2, r3, -, -⟩ := rate_finer H hy hl hc hd
    rw [r1]
    exact div_le_div_of_nonneg_left (Nat.cast_nonneg _) (by exact_mod_cast r2) (by exact_mod_cast r3)
  simp only [meanRate, H.coders, hlen, lab, lab0]
  refine ⟨div_nonneg (Finset.sum_nonneg fun c _ => Finset.sum_nonneg fun d _ =>
      Finset.sum_nonneg fun l _ => div_nonneg (Nat.cast_nonneg _) (Nat.cast_nonneg _)) hk.le,
    div_le_div_of_nonneg_right (Finset.sum_le_sum fun c hc => Finset.sum_le_sum fun d hd =>
      Finset.sum_le_sum fun l hl => each c hc d hd l hl) hk.le, fun h2 => ?_⟩
  refine div_lt_div_of_pos_right ?_ hk
  obtain ⟨it, hit⟩ := List.exists_mem_of_ne_nil _ hne
  have hl : it.1 ∈ (data.items.map Prod.fst).toFinset := List.mem_toFinset.2 (List.mem_map_of_mem hit)
  obtain ⟨c, hc⟩ := Finset.card_pos.1 (show 0 < (getCoders data).card by omega)
  obtain ⟨d, hd, hcd⟩ := other_coder hC hc
  have hd' : d ∈ (getCoders data).erase c := Finset.mem_erase.2 ⟨hcd.symm, hd⟩
  have hc' : c ∈ (getCoders data).erase d := Finset.mem_erase.2 ⟨hcd, hc⟩
  have strict : ∃ c ∈ getCoders data, ∃ d ∈ (getCoders data).erase c,
      (boundaryCount (S' it.1 c) : ℚ) /
        ((S' it.1 c).length * (identifyTypes (S' it.1 c) (S' it.1 d)).card : ℕ) <
      (boundaryCount (S it.1 c) : ℚ) /
        ((S it.1 c).length * (identifyTypes (S it.1 c) (S it.1 d)).card : ℕ) := by
    have one : ∀ c ∈ getCoders data, ∀ d ∈ (getCoders data).erase c, 0 < boundaryCount (S it.1 c) →
        (boundaryCount (S' it.1 c) : ℚ) /
          ((S' it.1 c).length * (identifyTypes (S' it.1 c) (S' it.1 d)).card : ℕ) <
        (boundaryCount (S it.1 c) : ℚ) /
          ((S it.1 c).length * (identifyTypes (S it.1 c) (S it.1 d)).card : ℕ) := by
      intro c hc d hd hpos
      obtain ⟨r1, r2, -, r4, -⟩ := rate_finer H hy hl hc hd
      rw [r1]
      exact div_lt_div_of_pos_left (by exact_mod_cast hpos) (by exact_mod_cast r2)
        (by exact_mod_cast r4 h2)
    obtain ⟨-, -, -, -, r5⟩ := rate_finer H hy hl hc hd'
    rcases Nat.eq_zero_or_pos (boundaryCount (S it.1 c)) with h0 | h0
    · exact ⟨d, hd, c, hc', one d hd c hc' (by omega)⟩
    · exact ⟨c, hc, d, hd', one c hc d hd' h0⟩
  obtain ⟨c, hc, d, hd, hlt⟩ := strict
  refine Finset.sum_lt_sum (fun c hc => Finset.sum_le_sum fun d hd =>
    Finset.sum_le_sum fun l hl => each c hc d hd l hl) ⟨c, hc, ?_⟩
  refine Finset.sum_lt_sum (fun d hd => Finset.sum_le_sum fun l hl => each c hc d hd l hl) ⟨d, hd, ?_⟩
  exact Finset.sum_lt_sum (fun l hl => each c hc d hd l hl) ⟨_, hl, hlt⟩

/-- C127: but pi rises unless it was 1, because its expected agreement falls. -/
theorem C127_pi (hc : CodersMatch data) (hc' : CodersMatch data') {v v' : PyNum}
    (h : fleissPi o (compareB rt nT .default) kw false data = .ok (.value v))
    (h' : fleissPi o' (compareB rt (m * nT) .default) kw' false data' = .ok (.value v')) :
    v.val ≤ v'.val ∧ (2 ≤ m → (v'.val = v.val ↔ v.val = 1)) := by
  obtain ⟨w, x, ae, hw, hx, hp, a0, a1, hv, -, v1, -⟩ := C48_pi H.dict hc H.coded.valid h
  obtain ⟨w', x', ae', hw', hx', hp', a0', a1', hv', -, v1', -⟩ := C48_pi H.dict' hc' H.coded'.valid h'
  cases hw; cases hw'
  have e := C63_pi H.dict H.coded.valid (counts_codedAs H.coded) hp
  have e' := C63_pi H.dict' H.coded'.valid (counts_codedAs H.coded') hp'
  obtain ⟨r0, r1, r2⟩ := meanRate_finer H hx
  rw [C127_actual H hx hx'] at hv'
  simp only [PyNum.val] at e e'
  rw [eq_div_iff (by linarith)] at hv hv'
  have hle : ae' ≤ ae := by rw [e, e']; exact pow_le_pow_left₀ r0 r1 2
  refine ⟨?_, fun h2 => ⟨fun he => ?_, fun he => ?_⟩⟩
  · have : 0 ≤ (v'.val - v.val) * (1 - ae') := by
      have : (v'.val - v.val) * (1 - ae') = (1 - v.val) * (ae - ae') := by linarith
      rw [this]
      exact mul_nonneg (by linarith) (by linarith)
    have := nonneg_of_mul_nonneg_left this (by linarith)
    linarith
  · have hlt : ae' < ae := by rw [e, e']; exact pow_lt_pow_left₀ (r2 h2) r0 (by decide)
    rw [he] at hv'
    have : (1 - v.val) * (ae - ae') = 0 := by linarith
    rcases mul_eq_zero.1 this with h0 | h0 <;> linarith
  · have : (v'.val - v.val) * (1 - ae') = 0 := by
      have : (v'.val - v.val) * (1 - ae') = (1 - v.val) * (ae - ae') := by linarith
      rw [this, he]; ring
    rcases mul_eq_zero.1 this with h0 | h0 <;> linarith

theorem coderRate_finer {y : PyNum} (hy : actualAgreement o (compareB rt nT .default) kw data = .ok y)
    {c : Name} (hc : c ∈ getCoders data) :
    0 ≤ coderRate data'.items (getCoders data') (fun l c => boundaryCount (S' l c))
      (fun l c d => (S' l c).length * (identifyTypes (S' l c) (S' l d)).card) c ∧
    coderRate data'.items (getCoders data') (fun l c => boundaryCount (S' l c))
      (fun l c d => (S' l c).length * (identifyTypes (S' l c) (S' l d)).card) c ≤
    coderRate data.items (getCoders data) (fun l c => boundaryCount (S l c))
      (fun l c d => (S l c).length * (identifyTypes (S l c) (S l d)).card) c ∧
    (2 ≤ m → 0 < coderRate data.items (getCoders data) (fun l c => boundaryCount (S l c))
      (fun l c d => (S l c).length * (identifyTypes (S l c) (S l d)).card) c →
      coderRate data'.items (getCoders data') (fun l c => boundaryCount (S' l c))
      (fun l c d => (S' l c).length * (identifyTypes (S' l c) (S' l d)).card) c <
      coderRate data.items (getCoders data) (fun l c => boundaryCount (S l c))
      (fun l c d => (S l c).length * (identifyTypes (S l c) (S l d)).card) c) := by
  obtain ⟨hC, hne⟩ := some_pair hy
  obtain ⟨d, hd, hcd⟩ := other_coder hC hc
  have hd' : d ∈ (getCoders data).erase c := Finset.mem_erase.2 ⟨hcd.symm, hd⟩
  have num : (data'.items.map (fun it => (boundaryCount (S' it.1 c) : ℚ))).sum =
      ∑ l ∈ (data.items.map Prod.fst).toFinset, (boundaryCount (S l c) : ℚ) := by
    rw [label_sum H.dict' (fun l => (boundaryCount (S' l c) : ℚ)), H.labels]
    exact Finset.sum_congr rfl fun l hl => by rw [(rate_finer H hy hl hc hd').1]
  have num0 : (data.items.map (fun it => (boundaryCount (S it.1 c) : ℚ))).sum =
      ∑ l ∈ (data.items.map Prod.fst).toFinset, (boundaryCount (S l c) : ℚ) :=
    label_sum H.dict (fun l => (boundaryCount (S l c) : ℚ))
  have den : ∀ d, (data'.items.map (fun it =>
      (((S' it.1 c).length * (identifyTypes (S' it.1 c) (S' it.1 d)).card : ℕ) : ℚ))).sum =
      ∑ l ∈ (data.items.map Prod.fst).toFinset,
        (((S' l c).length * (identifyTypes (S' l c) (S' l d)).card : ℕ) : ℚ) := by
    intro d
    rw [← H.labels]
    exact label_sum H.dict' (fun l => (((S' l c).length * (identifyTypes (S' l c) (S' l d)).card : ℕ) : ℚ))
  have den0 : ∀ d, (data.items.map (fun it =>
      (((S it.1 c).length * (identifyTypes (S it.1 c) (S it.1 d)).card : ℕ) : ℚ))).sum =
      ∑ l ∈ (data.items.map Prod.fst).toFinset,
        (((S l c).length * (identifyTypes (S l c) (S l d)).card : ℕ) : ℚ) := fun d =>
    label_sum H.dict (fun l => (((S l c).length * (identifyTypes (S l c) (S l d)).card : ℕ) : ℚ))
  simp only [coderRate, H.coders, num, num0, den, den0]
  have hnum : (0 : ℚ) ≤ ∑ _d ∈ (getCoders data).erase c,
      ∑ l ∈ (data.items.map Prod.fst).toFinset, (boundaryCount (S l c) : ℚ) :=
    Finset.sum_nonneg fun d _ => Finset.sum_nonneg fun l _ => Nat.cast_nonneg _
  obtain ⟨it, hit⟩ := List.exists_mem_of_ne_nil _ hne
  have hl : it.1 ∈ (data.items.map Prod.fst).toFinset := List.mem_toFinset.2 (List.mem_map_of_mem hit)
  have hden : (0 : ℚ) < ∑ d ∈ (getCoders data).erase c, ∑ l ∈ (data.items.map Prod.fst).toFinset,
      (((S l c).length * (identifyTypes (S l c) (S l d)).card : ℕ) : ℚ) :=
    Finset.sum_pos (fun d hd => Finset.sum_pos (fun l hl => by
      exact_mod_cast (rate_finer H hy hl hc hd).2.1) ⟨_, hl⟩) ⟨d, hd'⟩
  refine ⟨div_nonneg hnum (Finset.sum_nonneg fun d _ => Finset.sum_nonneg fun l _ => Nat.cast_nonneg _),
    div_le_div_of_nonneg_left hnum hden ?_, fun h2 hpos => ?_⟩
  · exact Finset.sum_le_sum fun d hd => Finset.sum_le_sum fun l hl => by
      exact_mod_cast (rate_finer H hy hl hc hd).2.2.1
  · refine div_lt_div_of_pos_left ((div_pos_iff_of_pos_right hden).1 hpos) hden ?_
    exact Finset.sum_lt_sum_of_nonempty ⟨d, hd'⟩ fun d hd =>
      Finset.sum_lt_sum_of_nonempty ⟨_, hl⟩ fun l hl => by
        exact_mod_cast (rate_finer H hy hl hc hd).2.2.2.1 h2

/-- C127: kappa does not fall, either, because its expected agreement (reported as its second part) does
not rise; halved or smaller units leave it unchanged only if it was 1 or the expected agreement 0. -/
theorem C127_kappa (hc : CodersMatch data) (hc' : CodersMatch data') {v v' aa ae : PyNum}
    (h : fleissKappa o (compareB rt nT .default) kw false data = .ok (.value v))
    (hp : fleissKappa o (compareB rt nT .default) kw true data = .ok (.parts aa ae))
    (h' : fleissKappa o' (compareB rt (m * nT) .default) kw' false data' = .ok (.value v')) :
    v.val ≤ v'.val ∧ (2 ≤ m → (v'.val = v.val ↔ v.val = 1 ∨ ae.val = 0)) := by
  obtain ⟨w, x, e, hw, hx, hp1, a0, a1, hv, -, v1, -⟩ := C48_kappa H.dict hc H.coded.valid h
  obtain ⟨w', x', e', hw', hx', hp1', a0', a1', hv', -, v1', -⟩ :=
    C48_kappa H.dict' hc' H.coded'.valid h'
  cases hw; cases hw'
  rw [hp1] at hp
  cases hp
  have f := C63_kappa H.dict H.coded.valid (counts_codedAs H.coded) hp1
  have f' := C63_kappa H.dict' H.coded'.valid (counts_codedAs H.coded') hp1'
  obtain ⟨hC, -⟩ := some_pair hx
  have rate := fun {c} => coderRate_finer (c := c) H hx
  rw [C127_actual H hx hx'] at hv'
  rw [show (PyNum.dec e).val = e from rfl]
  simp only [PyNum.val] at f f'
  rw [eq_div_iff (by linarith)] at hv hv'
  rw [H.coders] at rate f'
  generalize coderRate data.items (getCoders data) (fun l c => boundaryCount (S l c))
      (fun l c d => (S l c).length * (identifyTypes (S l c) (S l d)).card) = r at *
  generalize coderRate data'.items (getCoders data) (fun l c => boundaryCount (S' l c))
      (fun l c d => (S' l c).length * (identifyTypes (S' l c) (S' l d)).card) = r' at *
  have hk := pairs_count hC
  have nn : ∀ c ∈ getCoders data, 0 ≤ r c := fun c hc => (rate hc).1.trans (rate hc).2.1
  have each : ∀ c ∈ getCoders data, ∀ d ∈ (getCoders data).erase c, r' c * r' d ≤ r c * r d :=
    fun c hc d hd => mul_le_mul (rate hc).2.1 (rate (Finset.mem_of_mem_erase hd)).2.1
      (rate (Finset.mem_of_mem_erase hd)).1 (nn c hc)
  have hle : e' ≤ e := by
    rw [f, f', meanProduct, meanProduct]
    exact div_le_div_of_nonneg_right (Finset.sum_le_sum fun c hc => Finset.sum_le_sum fun d hd =>
      each c hc d hd) hk.le
  have key : (v'.val - v.val) * (1 - e') = (1 - v.val) * (e - e') := by linarith
  refine ⟨?_, fun h2 => ⟨fun he => ?_, fun he => ?_⟩⟩
  · have : 0 ≤ (v'.val - v.val) * (1 - e') := by
      rw [key]
      exact mul_nonneg (by linarith) (by linarith)
    have := nonneg_of_mul_nonneg_left this (by linarith)
    linarith
  · rw [he, sub_self, zero_mul] at key
    rcases mul_eq_zero.1 key.symm with h0 | h0
    · left; linarith
    · right
      by_contra hne
      have hlt : e' < e := by
        have hnz : ¬ ∀ c ∈ getCoders data, ∀ d ∈ getCoders data, c ≠ d → r c = 0 ∨ r d = 0 :=
          fun hall => hne (f.trans ((meanProduct_zero hC nn).2 hall))
        push Not at hnz
        obtain ⟨c, hcc, d, hdd, hcd, hc0, hd0⟩ := hnz
        have hc1 : 0 < r c := lt_of_le_of_ne (nn c hcc) (Ne.symm hc0)
        have hd1 : 0 < r d := lt_of_le_of_ne (nn d hdd) (Ne.symm hd0)
        have hd2 : d ∈ (getCoders data).erase c := Finset.mem_erase.2 ⟨hcd.symm, hdd⟩
        rw [f, f', meanProduct, meanProduct]
        refine div_lt_div_of_pos_right ?_ hk
        refine Finset.sum_lt_sum (fun c hc => Finset.sum_le_sum fun d hd => each c hc d hd)
          ⟨c, hcc, Finset.sum_lt_sum (fun d hd => each c hcc d hd) ⟨d, hd2, ?_⟩⟩
        exact mul_lt_mul'' ((rate hcc).2.2 h2 hc1) ((rate hdd).2.2 h2 hd1) (rate hcc).1 (rate hdd).1
      linarith
  · have : (v'.val - v.val) * (1 - e') = 0 := by
      rw [key]
      rcases he with he | he
      · rw [he]; ring
      · rw [show e' = e by linarith]; ring
    rcases mul_eq_zero.1 this with h0 | h0 <;> linarith

/-- C127: with segmentation similarity, what is missing from actual agreement falls as the potential
boundaries of all items (`L` of each in the former units) grow. -/
theorem C127_actual_segmentation {L : Name → ℕ}
    (hlen : ∀ l ∈ (data.items.map Prod.fst).toFinset, ∀ c ∈ getCoders data, (S l c).length = L l)
    {x x' : PyNum} (h : actualAgreement o (compareS rt nT .default) kw data = .ok x)
    (h' : actualAgreement o' (compareS rt (m * nT) .default) kw' data' = .ok x') :
    (1 - x'.val) * ∑ l ∈ (data.items.map Prod.fst).toFinset, ((m : ℚ) * (L l + 1) - 1) =
      (1 - x.val) * ∑ l ∈ (data.items.map Prod.fst).toFinset, (L l : ℚ) := by
  obtain ⟨y, hy⟩ := (C96_actual H.dict H.coded.valid (.inl H.one)).1.1 ⟨x, h⟩
  obtain ⟨hC, hne⟩ := some_pair hy
  have e1 := actual_positions H.dict H.one H.coded h
  have e2 := actual_positions H.dict' H.one' H.coded' h'
  rw [H.coders, H.labels] at e2
  have P := fun {l m n} => pair_strings (l := l) (m := m) (n := n) H.dict H.coded hy
  have cost : ∀ c ∈ getCoders data, ∀ d ∈ (getCoders data).erase c,
      ∀ l ∈ (data.items.map Prod.fst).toFinset,
      plainCost rt (m * nT) (S' l c) (S' l d) = plainCost rt nT (S l c) (S l d) := by
    intro c hc d hd l hl
    obtain ⟨h1, -, h3, h4⟩ := P hl hc (Finset.mem_of_mem_erase hd) (Finset.ne_of_mem_erase hd).symm H.one
    obtain ⟨p1, p2⟩ := plain_scaled (nT := nT) H.pos h1 (only_shared h3 h4 (one_small rt))
    rw [H.finer, H.finer, ← plain_sum, ← plain_sum, p1, p2]
  have rate := fun {l c d} => rate_finer (l := l) (c := c) (d := d) H hy
  obtain ⟨it, hit⟩ := List.exists_mem_of_ne_nil _ hne
  have hl : it.1 ∈ (data.items.map Prod.fst).toFinset := List.mem_toFinset.2 (List.mem_map_of_mem hit)
  generalize (data.items.map Prod.fst).toFinset = Ls at *
  generalize getCoders data = C at *
  obtain ⟨K, hK⟩ : ∃ K, ∑ c ∈ C, ∑ d ∈ C.erase c, ∑ l ∈ Ls, plainCost rt nT (S l c) (S l d) = K := ⟨_, rfl⟩
  have s1 : ∀ c ∈ C, ∀ d ∈ C.erase c, ∑ l ∈ Ls, (((S l d).length : ℕ) : ℚ) = ∑ l ∈ Ls, (L l : ℚ) :=
    fun c _ d hd => Finset.sum_congr rfl fun l hl => by rw [hlen l hl d (Finset.mem_of_mem_erase hd)]
  have s2 : ∀ c ∈ C, ∀ d ∈ C.erase c, ∑ l ∈ Ls, (((S' l d).length : ℕ) : ℚ) =
      ∑ l ∈ Ls, ((m : ℚ) * (L l + 1) - 1) :=
    fun c _ d hd => Finset.sum_congr rfl fun l hl => by
      have : (((finer m (∅ : Finset ℤ) (S l d)).length : ℕ) : ℚ) + 1 = m * ((S l d).length + 1) := by
        exact_mod_cast finer_length (d := (∅ : Finset ℤ)) H.pos (S l d)
      rw [H.finer, ← hlen l hl d (Finset.mem_of_mem_erase hd)]
      linarith
  have d1 : overPairs C Ls (fun l _ n => (((S l n).length : ℕ) : ℚ)) =
      C.card * (C.card - 1) * ∑ l ∈ Ls, (L l : ℚ) := by
    rw [← pairs_const]
    exact Finset.sum_congr rfl fun c hc => Finset.sum_congr rfl fun d hd => s1 c hc d hd
  have d2 : overPairs C Ls (fun l _ n => (((S' l n).length : ℕ) : ℚ)) =
      C.card * (C.card - 1) * ∑ l ∈ Ls, ((m : ℚ) * (L l + 1) - 1) := by
    rw [← pairs_const]
    exact Finset.sum_congr rfl fun c hc => Finset.sum_congr rfl fun d hd => s2 c hc d hd
  have n1 : overPairs C Ls (fun l c d => ((S l d).length : ℚ) - plainCost rt nT (S l c) (S l d)) =
      overPairs C Ls (fun l _ n => (((S l n).length : ℕ) : ℚ)) - K := by
    simp only [overPairs, hK, Finset.sum_sub_distrib]
  have n2 : overPairs C Ls (fun l c d => ((S' l d).length : ℚ) - plainCost rt (m * nT) (S' l c) (S' l d)) =
      overPairs C Ls (fun l _ n => (((S' l n).length : ℕ) : ℚ)) - K := by
    have kk : ∑ c ∈ C, ∑ d ∈ C.erase c, ∑ l ∈ Ls, plainCost rt (m * nT) (S' l c) (S' l d) = K := by
      rw [← hK]
      exact Finset.sum_congr rfl fun c hc => Finset.sum_congr rfl fun d hd =>
        Finset.sum_congr rfl fun l hl => cost c hc d hd l hl
    simp only [overPairs, Finset.sum_sub_distrib, kk]
  have hk := pairs_count hC
  have hm : (1 : ℚ) ≤ m := by exact_mod_cast H.pos
  have q1 : 0 < ∑ l ∈ Ls, (L l : ℚ) := by
    obtain ⟨c, hc⟩ := Finset.card_pos.1 (show 0 < C.card by omega)
    obtain ⟨d, hd, hcd⟩ := other_coder hC hc
    refine Finset.sum_pos (fun l hl => ?_) ⟨_, hl⟩
    obtain ⟨-, r2, -⟩ := rate hl hc (Finset.mem_erase.2 ⟨hcd.symm, hd⟩)
    rw [hlen l hl c hc] at r2
    exact_mod_cast Nat.pos_of_mul_pos_right r2
  have q2 : ∑ l ∈ Ls, (L l : ℚ) ≤ ∑ l ∈ Ls, ((m : ℚ) * (L l + 1) - 1) :=
    Finset.sum_le_sum fun l _ => by
      have : (0 : ℚ) ≤ L l := Nat.cast_nonneg _
      nlinarith
  rw [n1, d1] at e1
  rw [n2, d2] at e2
  rw [e1, e2]
  have a1 := (mul_pos hk q1).ne'
  have a2 := (mul_pos hk (q1.trans_le q2)).ne'
  generalize ∑ l ∈ Ls, ((m : ℚ) * (L l + 1) - 1) = A' at *
  generalize ∑ l ∈ Ls, (L l : ℚ) = A at *
  generalize (C.card : ℚ) * (C.card - 1) = k at *
  rw [sub_div, div_self a2, sub_div, div_self a1]
  have hk0 := hk.ne'
  have A0 : A ≠ 0 := q1.ne'
  have A0' : A' ≠ 0 := (q1.trans_le q2).ne'
  field_simp
  ring

end

/-- Two documents of two coders, in units of which `k` make one. -/
def exUnits (k : ℤ) : AgrData := .dict
  [("x".toList, [("a".toList, mass [2 * k, 2 * k]), ("b".toList, mass [k, 3 * k])]),
   ("y".toList, [("a".toList, mass [k, 2 * k]), ("b".toList, mass [k, k, k])])]

/-- C127 refuted for the coefficients: halving the unit raises pi from 119/407 to 8839/18639 and kappa
from 13/38 to 11/23, although actual agreement is 1/2 in both. -/
theorem C127_refuted :
    fleissPi ascN (compareB .ascending 2 .default) .mass false (exUnits 1) =
      .ok (.value (.dec (119 / 407))) ∧
    fleissPi ascN (compareB .ascending 4 .default) .mass false (exUnits 2) =
      .ok (.value (.dec (8839 / 18639))) ∧
    fleissKappa ascN (compareB .ascending 2 .default) .mass false (exUnits 1) =
      .ok (.value (.dec (13 / 38))) ∧
    fleissKappa ascN (compareB .ascending 4 .default) .mass false (exUnits 2) =
      .ok (.value (.dec (11 / 23))) ∧
    actualAgreement ascN (compareB .ascending 2 .default) .mass (exUnits 1) = .ok (.dec (1 / 2)) ∧
    actualAgreement ascN (compareB .ascending 4 .default) .mass (exUnits 2) = .ok (.dec (1 / 2)) := by
  refine ⟨?_, ?_, ?_, ?_, ?_, ?_⟩ <;> decide +kernel

/-- With segmentation similarity it is 7/10 of five potential boundaries, then 7/8 of twelve. -/
example :
    actualAgreement ascN (compareS .ascending 2 .default) .mass (exUnits 1) = .ok (.dec (7 / 10)) ∧
    actualAgreement ascN (compareS .ascending 4 .default) .mass (exUnits 2) = .ok (.dec (7 / 8)) ∧
    ((1 : ℚ) - 7 / 8) * 12 = (1 - 7 / 10) * 5 := by
  refine ⟨by decide +kernel, by decide +kernel, by norm_num⟩

/-- What the coders placed. -/
def exUnitsS (l c : Name) : BString :=
  if l = "x".toList then if c = "a".toList then [∅, {1}, ∅] else [{1}, ∅, ∅]
  else if c = "a".toList then [{1}, ∅] else [{1}, {1}]

/-- The data above meets the hypotheses. -/
example : SmallerUnits .mass .mass (exUnits 1) (exUnits 2) exUnitsS
    (fun l c => finer 2 ∅ (exUnitsS l c)) 2 ∧ CodersMatch (exUnits 1) ∧ CodersMatch (exUnits 2) := by
  have hd : ∀ k, IsDict (exUnits k).items := by
    intro k
    refine ⟨by simp [exUnits, AgrData.items], fun it hit => ?_⟩
    simp only [exUnits, AgrData.items, List.mem_cons, List.not_mem_nil, or_false] at hit
    rcases hit with rfl | rfl <;> simp
  have coded : ∀ k : ℤ, ∀ l c seg, Coded (exUnits k).items l c seg →
      (l = "x".toList ∧ c = "a".toList ∧ seg = mass [2 * k, 2 * k]) ∨
      (l = "x".toList ∧ c = "b".toList ∧ seg = mass [k, 3 * k]) ∨
      (l = "y".toList ∧ c = "a".toList ∧ seg = mass [k, 2 * k]) ∨
      (l = "y".toList ∧ c = "b".toList ∧ seg = mass [k, k, k]) := by
    rintro k l c seg ⟨cs, h1, h2⟩
    have h3 := dictGet_mem h1
    simp only [exUnits, AgrData.items, List.mem_cons, List.not_mem_nil, or_false, Prod.mk.injEq] at h3
    rcases h3 with ⟨rfl, rfl⟩ | ⟨rfl, rfl⟩ <;>
    · have h4 := dictGet_mem h2
      simp only [List.mem_cons, List.not_mem_nil, or_false, Prod.mk.injEq] at h4
      rcases h4 with ⟨rfl, rfl⟩ | ⟨rfl, rfl⟩ <;> simp
  refine ⟨⟨hd 1, hd 2, by decide, by decide, by simp [exUnits, AgrData.items], by decide +kernel,
    by decide, ?_, ?_, fun _ _ => rfl⟩, codersMatch_dict (hd 1), codersMatch_dict (hd 2)⟩
  · intro l c seg h
    rcases coded 1 l c seg h with ⟨rfl, rfl, rfl⟩ | ⟨rfl, rfl, rfl⟩ | ⟨rfl, rfl, rfl⟩ | ⟨rfl, rfl, rfl⟩ <;>
      exact massSeg_denotes _ (by simp) (by decide) _ (by decide +kernel)
  · intro l c seg h
    rcases coded 2 l c seg h with ⟨rfl, rfl, rfl⟩ | ⟨rfl, rfl, rfl⟩ | ⟨rfl, rfl, rfl⟩ | ⟨rfl, rfl, rfl⟩ <;>
      exact massSeg_denotes _ (by simp) (by decide) _ (by decide +kernel)

end SegEval.Props
