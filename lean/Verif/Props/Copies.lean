import Verif.Spec.Copies
import Verif.Props.FinerAgreement

/-!
# C130: agreement when every coder occurs several times
-/

namespace SegEval.Props

open SegEval Spec

section
variable {ι : Type} [DecidableEq ι] {C C' : Finset ι} {who : ι → ι} {k : ℕ}

theorem copies_sum (hk : ∀ c ∈ C', who c ∈ C) (ht : ∀ c ∈ C, (C'.filter (fun e => who e = c)).card = k)
    (f : ι → ℚ) : ∑ c ∈ C', f (who c) = k * ∑ c ∈ C, f c := by
  rw [← Finset.sum_fiberwise_of_maps_to hk, Finset.mul_sum]
  refine Finset.sum_congr rfl fun c hc => ?_
  rw [Finset.sum_congr rfl (g := fun _ => f c) (fun e he => by rw [(Finset.mem_filter.1 he).2]),
    Finset.sum_const, ht c hc, nsmul_eq_mul]

theorem erase_sum (C : Finset ι) (G : ι → ι → ℚ) :
    ∑ c ∈ C, ∑ d ∈ C.erase c, G c d = ∑ c ∈ C, ∑ d ∈ C, G c d - ∑ c ∈ C, G c c := by
  rw [← Finset.sum_sub_distrib]
  refine Finset.sum_congr rfl fun c hc => ?_
  rw [← Finset.add_sum_erase C _ hc]
  ring

/-- Pairs of copies are pairs of coders, `k²` times each, and pairs of copies of one coder. -/
theorem copies_pairs (hk : ∀ c ∈ C', who c ∈ C)
    (ht : ∀ c ∈ C, (C'.filter (fun e => who e = c)).card = k) (G : ι → ι → ℚ) :
    ∑ c ∈ C', ∑ d ∈ C'.erase c, G (who c) (who d) =
      k ^ 2 * (∑ c ∈ C, ∑ d ∈ C.erase c, G c d) + k * (k - 1) * ∑ c ∈ C, G c c := by
  rw [erase_sum C' (fun c d => G (who c) (who d)), erase_sum C]
  have h1 : ∀ c ∈ C', ∑ d ∈ C', G (who c) (who d) = k * ∑ d ∈ C, G (who c) d := fun c _ =>
    copies_sum hk ht (G (who c))
  rw [Finset.sum_congr rfl h1, copies_sum hk ht (fun c => k * ∑ d ∈ C, G c d),
    copies_sum hk ht (fun c => G c c), ← Finset.mul_sum]
  ring

theorem copies_card (hk : ∀ c ∈ C', who c ∈ C)
    (ht : ∀ c ∈ C, (C'.filter (fun e => who e = c)).card = k) : (C'.card : ℚ) = k * C.card := by
  have := copies_sum hk ht (fun _ => 1)
  simpa using this

end

theorem plain_self (rt : Runtime) (nT : ℤ) (a : BString) :
    plainCredit rt nT a a = boundaryCount a ∧ plainSize rt nT a a = boundaryCount a := by
  have he := bed_edits (le_of_eq rfl) ((C10_no_edits_iff rt a a rfl nT).2 rfl)
  have hm : matchCount a a = boundaryCount a := by simp [matchCount, boundaryCount]
  rw [plainCredit, plainSize, ← he, hm]
  simp [transpositionCredit, editCount]

theorem actual_le_one {o : ClassOrder Name} {rt : Runtime} {nT : ℤ} {kw : BoundaryFormat} {data : AgrData}
    {x : PyNum} (h : actualAgreement o (compareB rt nT .default) kw data = .ok x) : x.val ≤ 1 := by
  obtain ⟨h1, h2⟩ := (actual_ok x).1 h
  obtain ⟨h3, h4⟩ := actualOfParts_ok (rowsNoFlt_default rt nT (agrFormat kw data) (jobsOf o data)) h2
  obtain ⟨_, u1, u2, u3⟩ := actual_unit (rowsAre_default h1) (denSum_nil h3)
  rw [h4]; exact u2

section
variable {o o' : ClassOrder Name} {rt : Runtime} {nT : ℤ} {kw kw' : BoundaryFormat}
  {data data' : AgrData} {S S' : Name → Name → BString} {who : Name → Name} {k : ℕ}
  (H : Copied kw kw' data data' S S' who k)
include H

/-- C130: with every coder under `k` names, what is missing from actual agreement falls, because the
boundaries of a coder match those of the copies: exactly by the proportion below, in which `D` is the number
of edits and matches before. Only complete agreement stays what it was. -/
theorem C130_actual {x x' : PyNum}
    (h : actualAgreement o (compareB rt nT .default) kw data = .ok x)
    (h' : actualAgreement o' (compareB rt nT .default) kw' data' = .ok x') :
    (∃ D : ℚ, D = overPairs (getCoders data) (data.items.map Prod.fst).toFinset
        (fun l m n => plainSize rt nT (S l m) (S l n)) ∧ 0 < D ∧
      (1 - x'.val) * (k * D + (k - 1) *
      ∑ c ∈ getCoders data, ∑ l ∈ (data.items.map Prod.fst).toFinset, (boundaryCount (S l c) : ℚ)) =
      (1 - x.val) * (k * D)) ∧
    x.val ≤ x'.val ∧ (x'.val = x.val ↔ k = 1 ∨ x.val = 1) := by
  have e1 := C63_actual H.dict H.coded.valid (.inl H.one) (scores_plain H.one H.coded) h
  have e2 := C63_actual H.dict' H.coded'.valid (.inl H.one') (scores_plain H.one' H.coded') h'
  rw [pooled_pairs H.dict] at e1
  rw [pooled_pairs H.dict', H.labels] at e2
  simp only [H.same] at e2
  obtain ⟨hC, hne⟩ := some_pair h
  have hx1 := actual_le_one h
  have P := fun {l m n} => pair_strings (l := l) (m := m) (n := n) H.dict H.coded h
  obtain ⟨it, hit⟩ := List.exists_mem_of_ne_nil _ hne
  have hl : it.1 ∈ (data.items.map Prod.fst).toFinset := List.mem_toFinset.2 (List.mem_map_of_mem hit)
  have f1 := copies_pairs H.known H.times (fun c d => ∑ l ∈ (data.items.map Prod.fst).toFinset,
    plainCredit rt nT (S l c) (S l d))
  have f2 := copies_pairs H.known H.times (fun c d => ∑ l ∈ (data.items.map Prod.fst).toFinset,
    plainSize rt nT (S l c) (S l d))
  simp only [(plain_self rt nT _).1] at f1
  simp only [(plain_self rt nT _).2] at f2
  have hD : 0 < overPairs (getCoders data) (data.items.map Prod.fst).toFinset
      (fun l m n => plainSize rt nT (S l m) (S l n)) := by
    refine overPairs_pos hC ⟨_, hl⟩ fun l hl m hm n hn hmn => ?_
    obtain ⟨g1, g2, g3, g4⟩ := P hl hm hn hmn H.one
    obtain ⟨-, -, r3, r4⟩ := only_range (rt := rt) (nT := nT) (one_small rt) g1 g3 g4
    have : (0 : ℚ) < boundaryCount (S l m) + boundaryCount (S l n) := by exact_mod_cast uses_count g2
    linarith
  have hB : 0 < ∑ c ∈ getCoders data, ∑ l ∈ (data.items.map Prod.fst).toFinset,
      (boundaryCount (S l c) : ℚ) := by
    obtain ⟨m, hm, n, hn, hmn⟩ := Finset.one_lt_card.1 hC
    obtain ⟨-, g2, -⟩ := P hl hm hn hmn H.one
    have hu := uses_count g2
    have nn : ∀ c ∈ getCoders data, (0 : ℚ) ≤ ∑ l ∈ (data.items.map Prod.fst).toFinset,
        (boundaryCount (S l c) : ℚ) := fun c _ => Finset.sum_nonneg fun l _ => Nat.cast_nonneg _
    have pos : ∀ c, 0 < boundaryCount (S it.1 c) → (0 : ℚ) < ∑ l ∈ (data.items.map Prod.fst).toFinset,
        (boundaryCount (S l c) : ℚ) := fun c hc =>
      Finset.sum_pos' (fun l _ => Nat.cast_nonneg _) ⟨_, hl, by exact_mod_cast hc⟩
    rcases Nat.eq_zero_or_pos (boundaryCount (S it.1 m)) with h0 | h0
    · exact Finset.sum_pos' nn ⟨n, hn, pos n (by omega)⟩
    · exact Finset.sum_pos' nn ⟨m, hm, pos m h0⟩
  simp only [overPairs] at e1 e2 hD ⊢
  rw [f1, f2] at e2
  generalize (∑ c ∈ getCoders data, ∑ l ∈ (data.items.map Prod.fst).toFinset,
      (boundaryCount (S l c) : ℚ)) = B at *
  generalize (∑ m ∈ getCoders data, ∑ n ∈ (getCoders data).erase m,
    ∑ l ∈ (data.items.map Prod.fst).toFinset, plainSize rt nT (S l m) (S l n)) = D at *
  generalize (∑ m ∈ getCoders data, ∑ n ∈ (getCoders data).erase m,
    ∑ l ∈ (data.items.map Prod.fst).toFinset, plainCredit rt nT (S l m) (S l n)) = N at *
  have hk : (1 : ℚ) ≤ k := by exact_mod_cast H.pos
  have hM : 0 < (k : ℚ) * D + (k - 1) * B := by nlinarith
  have key : (1 - x'.val) * (k * D + (k - 1) * B) = (1 - x.val) * (k * D) := by
    have hk0 : (k : ℚ) ≠ 0 := by linarith
    rw [show (k : ℚ) ^ 2 * N + k * (k - 1) * B = k * (k * N + (k - 1) * B) by ring,
      show (k : ℚ) ^ 2 * D + k * (k - 1) * B = k * (k * D + (k - 1) * B) by ring,
      mul_div_mul_left _ _ hk0, eq_div_iff hM.ne'] at e2
    rw [eq_div_iff hD.ne'] at e1
    linear_combination (k : ℚ) * e1 - e2
  refine ⟨⟨D, rfl, hD, key⟩, ?_, fun he => ?_, fun he => ?_⟩
  · by_contra hlt
    push Not at hlt
    have h1 : (1 - x.val) * (k * D + (k - 1) * B) < (1 - x'.val) * (k * D + (k - 1) * B) :=
      mul_lt_mul_of_pos_right (by linarith) hM
    have h2 : 0 ≤ (1 - x.val) * ((k - 1) * B) :=
      mul_nonneg (by linarith) (mul_nonneg (by linarith) hB.le)
    linarith
  · rw [he] at key
    have h2 : (1 - x.val) * ((k - 1) * B) = 0 := by linarith
    rcases mul_eq_zero.1 h2 with h3 | h3
    · right; linarith
    · left
      rcases mul_eq_zero.1 h3 with h4 | h4
      · have : (k : ℚ) = 1 := by linarith
        exact_mod_cast this
      · exact absurd h4 hB.ne'
  · have h2 : (1 - x'.val) * (k * D + (k - 1) * B) = (1 - x.val) * (k * D + (k - 1) * B) := by
      rw [key]
      rcases he with he | he
      · rw [he]; push_cast; ring
      · rw [he]; ring
    have := mul_right_cancel₀ hM.ne' h2
    linarith

/-- The rate at which boundaries are placed stays the same. -/
theorem meanRate_copies {x x' : PyNum}
    (h : actualAgreement o (compareB rt nT .default) kw data = .ok x)
    (h' : actualAgreement o' (compareB rt nT .default) kw' data' = .ok x') :
    meanRate data'.items (getCoders data') (fun l c => boundaryCount (S' l c))
      (fun l c d => (S' l c).length * (identifyTypes (S' l c) (S' l d)).card) =
    meanRate data.items (getCoders data) (fun l c => boundaryCount (S l c))
      (fun l c d => (S l c).length * (identifyTypes (S l c) (S l d)).card) := by
  obtain ⟨hC, hne⟩ := some_pair h
  obtain ⟨hC', -⟩ := some_pair h'
  have hlen : data'.items.length = data.items.length := by
    rw [label_count H.dict', label_count H.dict, H.labels]
  have r0 : ∀ c ∈ getCoders data, ∀ d ∈ (getCoders data).erase c,
      (data.items.map (fun it => (boundaryCount (S it.1 c) : ℚ) /
        ((S it.1 c).length * (identifyTypes (S it.1 c) (S it.1 d)).card : ℕ))).sum =
      ∑ l ∈ (data.items.map Prod.fst).toFinset, (boundaryCount (S l c) : ℚ) / (S l c).length := by
    intro c hc d hd
    rw [label_sum H.dict (fun l => (boundaryCount (S l c) : ℚ) /
        ((S l c).length * (identifyTypes (S l c) (S l d)).card : ℕ))]
    refine Finset.sum_congr rfl fun l hl => ?_
    obtain ⟨-, h2, h3, h4⟩ := pair_strings H.dict H.coded h hl hc (Finset.mem_of_mem_erase hd)
      (Finset.ne_of_mem_erase hd).symm H.one
    rw [one_type_card h3 h4 h2, mul_one]
  have r1 : ∀ c ∈ getCoders data', ∀ d ∈ (getCoders data').erase c,
      (data'.items.map (fun it => (boundaryCount (S' it.1 c) : ℚ) /
        ((S' it.1 c).length * (identifyTypes (S' it.1 c) (S' it.1 d)).card : ℕ))).sum =
      ∑ l ∈ (data.items.map Prod.fst).toFinset,
        (boundaryCount (S l (who c)) : ℚ) / (S l (who c)).length := by
    intro c hc d hd
    rw [label_sum H.dict' (fun l => (boundaryCount (S' l c) : ℚ) /
        ((S' l c).length * (identifyTypes (S' l c) (S' l d)).card : ℕ)), ← H.labels]
    refine Finset.sum_congr rfl fun l hl => ?_
    obtain ⟨-, h2, h3, h4⟩ := pair_strings H.dict' H.coded' h' hl hc (Finset.mem_of_mem_erase hd)
      (Finset.ne_of_mem_erase hd).symm H.one'
    rw [one_type_card h3 h4 h2, mul_one, H.same]
  rw [meanRate, meanRate, hlen,
    Finset.sum_congr rfl (fun c hc => Finset.sum_congr rfl (fun d hd => r0 c hc d hd)),
    Finset.sum_congr rfl (fun c hc => Finset.sum_congr rfl (fun d hd => r1 c hc d hd))]
  have avg : ∀ (C : Finset Name) (f : Name → ℚ), 2 ≤ C.card →
      (∑ c ∈ C, ∑ _d ∈ C.erase c, f c) = (C.card - 1) * ∑ c ∈ C, f c := by
    intro C f hC
    rw [Finset.mul_sum]
    refine Finset.sum_congr rfl fun c hc => ?_
    rw [Finset.sum_const, Finset.card_erase_of_mem hc, nsmul_eq_mul, Nat.cast_sub (by omega), Nat.cast_one]
  rw [avg _ _ hC, avg _ _ hC', copies_sum H.known H.times
    (fun c => ∑ l ∈ (data.items.map Prod.fst).toFinset, (boundaryCount (S l c) : ℚ) / (S l c).length)]
  have hc := copies_card H.known H.times
  have a1 : (0 : ℚ) < (getCoders data).card - 1 := by
    have : (2 : ℚ) ≤ (getCoders data).card := by exact_mod_cast hC
    linarith
  have a2 : (0 : ℚ) < (getCoders data').card - 1 := by
    have : (2 : ℚ) ≤ (getCoders data').card := by exact_mod_cast hC'
    linarith
  have hn : (0 : ℚ) < data.items.length := by exact_mod_cast List.length_pos_iff.2 hne
  have hk : (0 : ℚ) < k := by exact_mod_cast H.pos
  generalize (∑ c ∈ getCoders data, ∑ l ∈ (data.items.map Prod.fst).toFinset,
    (boundaryCount (S l c) : ℚ) / (S l c).length) = F at *
  rw [div_eq_div_iff (mul_pos (mul_pos (by linarith) a2) hn).ne' (mul_pos (mul_pos (by linarith) a1) hn).ne',
    hc]
  ring

/-- C130: so pi rises unless it was 1. -/
theorem C130_pi (hc : CodersMatch data) (hc' : CodersMatch data') {v v' : PyNum}
    (h : fleissPi o (compareB rt nT .default) kw false data = .ok (.value v))
    (h' : fleissPi o' (compareB rt nT .default) kw' false data' = .ok (.value v')) :
    v.val ≤ v'.val ∧ (v'.val = v.val ↔ k = 1 ∨ v.val = 1) := by
  obtain ⟨w, x, ae, hw, hx, hp, a0, a1, hv, -⟩ := C48_pi H.dict hc H.coded.valid h
  obtain ⟨w', x', ae', hw', hx', hp', a0', a1', hv', -⟩ := C48_pi H.dict' hc' H.coded'.valid h'
  cases hw; cases hw'
  have e := C63_pi H.dict H.coded.valid (counts_codedAs H.coded) hp
  have e' := C63_pi H.dict' H.coded'.valid (counts_codedAs H.coded') hp'
  rw [meanRate_copies H hx hx', ← e] at e'
  have e' : ae' = ae := e'
  subst e'
  obtain ⟨-, h1, h2⟩ := C130_actual H hx hx'
  have hq : (0 : ℚ) < 1 - ae' := by linarith
  rw [hv, hv']
  refine ⟨div_le_div_of_nonneg_right (by linarith) hq.le, ?_⟩
  rw [div_left_inj' hq.ne', sub_left_inj, h2, div_eq_one_iff_eq hq.ne', sub_left_inj]

end

/-- Two coders of one document, each under the names listed. -/
def exCopies (as bs : List Name) : AgrData := .dict
  [("x".toList, as.map (fun n => (n, mass [2, 2, 4])) ++ bs.map (fun n => (n, mass [2, 6])))]

/-- C130 refuted: listing both coders twice raises actual agreement, pi and kappa, though nothing was coded
anew. -/
theorem C130_refuted :
    actualAgreement ascN (compareB .ascending 2 .default) .mass (exCopies ["a".toList] ["b".toList]) =
      .ok (.dec (1 / 2)) ∧
    actualAgreement ascN (compareB .ascending 2 .default) .mass
      (exCopies ["a".toList, "c".toList] ["b".toList, "d".toList]) = .ok (.dec (7 / 11)) ∧
    fleissPi ascN (compareB .ascending 2 .default) .mass false (exCopies ["a".toList] ["b".toList]) =
      .ok (.value (.dec (89 / 187))) ∧
    fleissPi ascN (compareB .ascending 2 .default) .mass false
      (exCopies ["a".toList, "c".toList] ["b".toList, "d".toList]) = .ok (.value (.dec (1273 / 2057))) ∧
    fleissKappa ascN (compareB .ascending 2 .default) .mass false (exCopies ["a".toList] ["b".toList]) =
      .ok (.value (.dec (45 / 94))) ∧
    fleissKappa ascN (compareB .ascending 2 .default) .mass false
      (exCopies ["a".toList, "c".toList] ["b".toList, "d".toList]) =
      .ok (.value (.dec (1915 / 3091))) := by
  refine ⟨?_, ?_, ?_, ?_, ?_, ?_⟩ <;> decide +kernel

/-- Whose copy a name is, and what the coders placed. -/
def exWho (c : Name) : Name :=
  if c = "c".toList then "a".toList else if c = "d".toList then "b".toList else c
def exCopiesS (c : Name) : BString :=
  if c = "a".toList then [∅, {1}, ∅, {1}, ∅, ∅, ∅] else [∅, {1}, ∅, ∅, ∅, ∅, ∅]

/-- The data above meets the hypotheses. -/
example : Copied .mass .mass (exCopies ["a".toList] ["b".toList])
    (exCopies ["a".toList, "c".toList] ["b".toList, "d".toList]) (fun _ => exCopiesS)
    (fun _ c => exCopiesS (exWho c)) exWho 2 ∧ CodersMatch (exCopies ["a".toList] ["b".toList]) ∧
    CodersMatch (exCopies ["a".toList, "c".toList] ["b".toList, "d".toList]) := by
  have hd : ∀ as bs : List Name, (as ++ bs).Nodup → IsDict (exCopies as bs).items := by
    intro as bs hn
    refine ⟨by simp [exCopies, AgrData.items], fun it hit => ?_⟩
    simp only [exCopies, AgrData.items, List.mem_cons, List.not_mem_nil, or_false] at hit
    subst hit
    simpa [Function.comp_def] using hn
  have coded : ∀ as bs : List Name, ∀ l c seg, Coded (exCopies as bs).items l c seg →
      (c ∈ as ∧ seg = mass [2, 2, 4]) ∨ (c ∈ bs ∧ seg = mass [2, 6]) := by
    rintro as bs l c seg ⟨cs, h1, h2⟩
    have h3 := dictGet_mem h1
    simp only [exCopies, AgrData.items, List.mem_cons, List.not_mem_nil, or_false, Prod.mk.injEq] at h3
    obtain ⟨rfl, rfl⟩ := h3
    have h4 := dictGet_mem h2
    simp only [List.mem_append, List.mem_map, Prod.mk.injEq] at h4
    rcases h4 with ⟨n, h5, rfl, rfl⟩ | ⟨n, h5, rfl, rfl⟩
    · exact .inl ⟨h5, rfl⟩
    · exact .inr ⟨h5, rfl⟩
  have d1 := hd ["a".toList] ["b".toList] (by decide)
  have d2 := hd ["a".toList, "c".toList] ["b".toList, "d".toList] (by decide)
  refine ⟨⟨d1, d2, by decide, by decide, by decide, by decide, by decide +kernel, by decide +kernel,
    ?_, ?_, fun _ _ => rfl⟩, codersMatch_dict d1, codersMatch_dict d2⟩
  · intro l c seg h
    rcases coded _ _ l c seg h with ⟨hc, rfl⟩ | ⟨hc, rfl⟩ <;>
    · simp only [List.mem_cons, List.not_mem_nil, or_false] at hc
      subst hc
      exact massSeg_denotes _ (by simp) (by decide) _ (by beta_reduce; decide +kernel)
  · intro l c seg h
    rcases coded _ _ l c seg h with ⟨hc, rfl⟩ | ⟨hc, rfl⟩ <;>
    · simp only [List.mem_cons, List.not_mem_nil, or_false] at hc
      rcases hc with rfl | rfl <;>
        exact massSeg_denotes _ (by simp) (by decide) _ (by beta_reduce; decide +kernel)

end SegEval.Props
