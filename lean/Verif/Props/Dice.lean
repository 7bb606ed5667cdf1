import Verif.Props.Exchange
import Verif.Props.Formula
import Verif.Props.Wider
import Verif.Lemmas.MatrixTotals

namespace SegEval.Props

open Spec

theorem bcm_facts {rt : Runtime} {kw : SimKw} (hw : Supplied kw.weight) (hn : 0 < kw.nT) {a b : Seg}
    {sa sb : BString}
    (ha : Denotes kw.boundaryFormat a sa) (hb : Denotes kw.boundaryFormat b sb) {e : Edits}
    (he : boundaryEditDistance rt sa sb kw.nT = .ok e) {m : CM BLabel}
    (h : boundaryConfusionMatrix rt kw a b = .ok m) : sa.length = sb.length ∧
    Reachable m ∧ NoFloats m ∧ NonNeg m ∧ ∃ st : Statistics, st.edits = e ∧
      st.matches' = matchesFrom rt 0 (sa.zip sb) ∧
      incrs (incrsOf kw.weight kw.nT st) {} = .ok m := by
  have hr := C38_reachable rt kw a b sa sb ha hb m h
  unfold boundaryConfusionMatrix at h
  rw [boundaryStatistics_denotes ha hb] at h
  cases h1 : statisticsOfStrings rt kw.weight kw.nT sa sb with
  | error e => rw [h1] at h; cases h
  | ok st =>
    rw [h1] at h
    obtain ⟨hl, he', hed, hce, _, _, hm, _⟩ := statistics_ok h1
    have hx : ∃ x, kw.weight.t (editsOf rt sa sb kw.nT).transpositions kw.nT = .ok x := by
      unfold countEdits at hce
      generalize kw.weight.t (editsOf rt sa sb kw.nT).transpositions kw.nT = r at hce ⊢
      cases r with
      | ok x => exact ⟨x, rfl⟩
      | error e => exfalso; revert hce; repeat' split
                   all_goals simp_all
    obtain ⟨x, hx⟩ := hx
    obtain ⟨m0, h2, hnf⟩ := matrix_total hw hx (st := st)
    have : m0 = m := Except.ok.inj (h2.symm.trans h)
    subst this
    have hi := matrix_incrs h
    refine ⟨hl, hr, hnf, incrs_nonNeg hi ?_, st, ?_, hm, hi⟩
    · intro y hy
      simp only [incrsOf, List.mem_append, List.mem_map] at hy
      rcases hy with ((⟨t, _, rfl⟩ | ⟨t, _, rfl⟩) | ⟨t, _, rfl⟩) | ⟨t, _, rfl⟩
      · simp [PyNum.val]
      · rw [creditNum_val]; exact supplied_credit_nonneg hw hn t
      · simp [PyNum.val]
      · simp [PyNum.val]
    · rw [hed]; exact Except.ok.inj (he'.symm.trans he)

/-- C109: micro-averaged precision and recall of the confusion matrix of two segmentations: matches
and the credit of near misses, over these together with substitutions and additions. -/
theorem C109_micro (rt : Runtime) (kw : SimKw) (hw : Supplied kw.weight) (hn : 0 < kw.nT) (a b : Seg)
    (sa sb : BString)
    (ha : Denotes kw.boundaryFormat a sa) (hb : Denotes kw.boundaryFormat b sb) (e : Edits)
    (he : boundaryEditDistance rt sa sb kw.nT = .ok e) (m : CM BLabel)
    (h : boundaryConfusionMatrix rt kw a b = .ok m) (o : ClassOrder BLabel) (site : List ℕ) :
    let near := (e.transpositions.map (credit kw.weight kw.nT)).sum
    let value := (matchCount sa sb + near) /
      (matchCount sa sb + near + e.substitutions.length + e.additions.length)
    answer (precision o site none .micro m) = some value ∧
    answer (recall o site none .micro m) = some value := by
  obtain ⟨hl, hr, hf, hnn, st, rfl, hm, hi⟩ := bcm_facts hw hn ha hb he h
  have hsub := substitution_types hl he
  have one : ∀ {α : Type} (l : List α), (l.map (fun _ => (1 : ℚ))).sum = l.length := by
    intro α l; simp
  have hd : diagonal m = matchCount sa sb +
      (st.edits.transpositions.map (credit kw.weight kw.nT)).sum := by
    rw [incrs_diagonal hi, incrsOf_sum kw.weight kw.nT st (fun p a v => if p = a then v else 0), hm,
      sum_all_zero st.edits.additions, sum_all_zero st.edits.substitutions, add_zero, add_zero]
    · simp only [if_true, one, matches_length rt hl]
    · intro s hs
      rw [if_neg]
      intro h
      exact (hsub s hs) (Option.some.inj h)
    · intro d _
      unfold additionCell
      cases d.side <;> simp
  have hg : grandTotal m = matchCount sa sb +
      (st.edits.transpositions.map (credit kw.weight kw.nT)).sum + st.edits.substitutions.length +
      st.edits.additions.length := by
    rw [incrs_grandTotal hi, incrsOf_sum kw.weight kw.nT st (fun _ _ v => v), hm]
    simp only [one, matches_length rt hl]
  have hz : (some (if diagonal m = 0 then 0 else diagonal m / grandTotal m) : Option ℚ) =
      some (diagonal m / grandTotal m) := by
    split_ifs with h0
    · rw [h0, zero_div]
    · rfl
  obtain ⟨h1, h2⟩ := C35_micro o o site site m hr hf hnn
  rw [hz, hg, hd] at h1 h2
  exact ⟨h1, h2⟩

/-- C109: with unscaled weights the micro-averaged precision (and recall) is never below boundary
similarity, and equal to it exactly when there are no near misses. -/
theorem C109_unscaled (rt : Runtime) (kw : SimKw) (hw : kw.weight = .unscaled) (hn : 0 < kw.nT)
    (hp : kw.returnParts = false) (ho : kw.oneMinus = false) (a b : Seg) (sa sb : BString)
    (ha : Denotes kw.boundaryFormat a sa) (hb : Denotes kw.boundaryFormat b sb) (e : Edits)
    (he : boundaryEditDistance rt sa sb kw.nT = .ok e) (m : CM BLabel)
    (h : boundaryConfusionMatrix rt kw a b = .ok m) (x : ℚ)
    (hx : Returns (boundarySimilarity rt kw a b) x) (o : ClassOrder BLabel) (site : List ℕ) :
    ∃ y, answer (precision o site none .micro m) = some y ∧ x ≤ y ∧
      (x = y ↔ e.transpositions = []) := by
  have hs : Supplied kw.weight := by rw [hw]; exact ⟨rfl, Or.inl rfl, Or.inl rfl⟩
  obtain ⟨h1, _⟩ := C109_micro rt kw hs hn a b sa sb ha hb e he m h o site
  refine ⟨_, h1, ?_⟩
  have hc : (e.transpositions.map (credit kw.weight kw.nT)).sum = e.transpositions.length := by
    rw [hw, List.map_congr_left (g := fun _ => (1 : ℚ)) (fun t _ => C40_unscaled kw.nT t)]
    simp
  obtain ⟨v, hv, rfl⟩ := id hx
  obtain ⟨st, hst⟩ := boundarySim_stats hv
  have hst' := hst
  rw [boundaryStatistics_denotes ha hb] at hst'
  obtain ⟨hl, hbed, _⟩ := statistics_ok hst'
  have hpos : (0 : ℚ) < matchCount sa sb + editCount e := by
    have := edits_matches_pos (rt := rt) hl kw.nT (statistics_types_ne hst')
    rw [← Except.ok.inj (hbed.symm.trans he)]
    exact_mod_cast (by omega)
  have hB := (C64_unscaled rt kw hw hp ho a b sa sb ha hb (identifyTypes sa sb)
    (fun t => mem_identifyTypes) e he _).1 hx
  rw [hB, hc]
  have hcount : (editCount e : ℚ) = e.transpositions.length + e.substitutions.length +
      e.additions.length := by
    simp only [editCount]; push_cast; ring
  have hden : (matchCount sa sb + e.transpositions.length + e.substitutions.length +
      e.additions.length : ℚ) = matchCount sa sb + editCount e := by rw [hcount]; ring
  rw [hden]
  refine ⟨?_, ?_⟩
  · refine div_le_div_of_nonneg_right ?_ hpos.le
    have : (0 : ℚ) ≤ e.transpositions.length := by positivity
    linarith
  · rw [div_left_inj' hpos.ne', ← List.length_eq_zero_iff]
    constructor
    · intro h0
      have : (e.transpositions.length : ℚ) = 0 := by linarith
      exact_mod_cast this
    · intro h0; rw [h0]; simp

example : (boundaryConfusionMatrix .ascending { weight := .unscaled } (massSeg [2, 3, 6])
      (massSeg [2, 4, 5])).toOption.map (fun m => answer (precision ascB [] none .micro m)) =
      some (some 1) ∧
    boundarySimilarity .ascending { weight := .unscaled } (massSeg [2, 3, 6]) (massSeg [2, 4, 5]) =
      .ok (.num (.flt (1 / 2))) := by decide +kernel

theorem sum_indicator {α : Type _} (l : List α) (P : α → Prop) [DecidablePred P] :
    (l.map (fun x => if P x then (1 : ℚ) else 0)).sum = l.countP (fun x => decide (P x)) := by
  induction l with
  | nil => simp
  | cons x xs ih =>
    rw [List.map_cons, List.sum_cons, ih, List.countP_cons]
    by_cases h : P x
    · simp [h, add_comm]
    · simp [h]

theorem placed_split {a b : BString} (hl : a.length = b.length) (t : ℤ) :
    placed a t = matchesOf a b t + ((Finset.range a.length).filter (fun p => t ∈ onlyIn a b p)).card ∧
    placed b t = matchesOf a b t +
      ((Finset.range a.length).filter (fun p => t ∈ onlyIn b a p)).card := by
  constructor
  · rw [placed, matchesOf, ← Finset.card_union_of_disjoint]
    · congr 1
      ext p
      simp only [Finset.mem_filter, Finset.mem_union, onlyIn, Finset.mem_inter, Finset.mem_sdiff]
      tauto
    · rw [Finset.disjoint_filter]
      intro p _ h1 h2
      simp only [onlyIn, Finset.mem_inter, Finset.mem_sdiff] at h1 h2
      tauto
  · rw [placed, ← hl, matchesOf, ← Finset.card_union_of_disjoint]
    · congr 1
      ext p
      simp only [Finset.mem_filter, Finset.mem_union, onlyIn, Finset.mem_inter, Finset.mem_sdiff]
      tauto
    · rw [Finset.disjoint_filter]
      intro p _ h1 h2
      simp only [onlyIn, Finset.mem_inter, Finset.mem_sdiff] at h1 h2
      tauto

/-- C109: without near misses, and with boundaries of one type, precision is the share of the
reference's boundaries that the hypothesis has too, recall the share of the hypothesis's boundaries
that the reference has too (C39 is why), and F1 and boundary similarity are the Dice and the Jaccard
coefficient of the two sets of boundaries: each is a function of the other. -/
theorem C109_dice (rt : Runtime) (kw : SimKw) (hw : kw.weight = .default ∨ kw.weight = .unscaled)
    (hn : 0 < kw.nT) (hp : kw.returnParts = false) (ho : kw.oneMinus = false)
    (hypothesis reference : Seg) (sh sr : BString)
    (ha : Denotes kw.boundaryFormat hypothesis sh) (hb : Denotes kw.boundaryFormat reference sr)
    (t : ℤ) (ht : ∀ p, typesAt sh p ⊆ {t} ∧ typesAt sr p ⊆ {t}) (e : Edits)
    (he : boundaryEditDistance rt sh sr kw.nT = .ok e) (h0 : e.transpositions = []) (m : CM BLabel)
    (h : boundaryConfusionMatrix rt kw hypothesis reference = .ok m) (x : ℚ)
    (hx : Returns (boundarySimilarity rt kw hypothesis reference) x) (hs : SharedTypes rt sh sr)
    (o : ClassOrder BLabel) (site : List ℕ) (v : Average) :
    answer (precision o site (some (some t)) v m) =
      some ((matchesOf sh sr t : ℚ) / placed sr t) ∧
    answer (recall o site (some (some t)) v m) =
      some ((matchesOf sh sr t : ℚ) / placed sh t) ∧
    answer (fmeasure o site (some (some t)) 1 v m) = some (2 * x / (1 + x)) := by
  have hs' : Supplied kw.weight := by
    rcases hw with hw | hw <;> rw [hw]
    · exact ⟨rfl, Or.inr rfl, Or.inr rfl⟩
    · exact ⟨rfl, Or.inl rfl, Or.inl rfl⟩
  obtain ⟨hl, hr, hf, hnn, st, rfl, hm, hi⟩ := bcm_facts hs' hn ha hb he h
  have hside : OneSided sh sr := by
    intro p
    by_cases h1 : t ∈ typesAt sr p
    · left
      rw [Finset.eq_empty_iff_forall_notMem]
      intro y hy
      rw [onlyIn, Finset.mem_sdiff] at hy
      have : y = t := Finset.mem_singleton.1 ((ht p).1 hy.1)
      exact hy.2 (this ▸ h1)
    · right
      rw [Finset.eq_empty_iff_forall_notMem]
      intro y hy
      rw [onlyIn, Finset.mem_sdiff] at hy
      have : y = t := Finset.mem_singleton.1 ((ht p).2 hy.1)
      exact h1 (this ▸ hy.1)
  have hsub := no_substitutions hl hside he
  obtain ⟨q1, q2⟩ := placed_split hl t
  have c1 := C06_edits_account_a rt sh sr hl kw.nT hs _ he t
  have c2 := C06_edits_account_b rt sh sr hl kw.nT hs _ he t
  have c3 := C06_edits_account rt sh sr hl kw.nT hs _ he
  rw [hsub, h0] at c1 c2 c3
  simp only [List.countP_nil, add_zero, List.length_nil, mul_zero] at c1 c2 c3
  have hM : matchCount sh sr = matchesOf sh sr t := by
    rw [matchCount, matchesOf, Finset.card_filter]
    refine Finset.sum_congr rfl (fun p _ => ?_)
    have hsub : typesAt sh p ∩ typesAt sr p ⊆ {t} := fun y hy =>
      (ht p).1 (Finset.mem_inter.1 hy).1
    rcases Finset.subset_singleton_iff.1 hsub with h1 | h1 <;> rw [h1] <;> simp
  have hA : st.edits.additions.length = st.edits.additions.countP (fun x => decide (x = ⟨t, .a⟩)) +
      st.edits.additions.countP (fun x => decide (x = ⟨t, .b⟩)) := by
    rw [← c3, ← c1, ← c2, Finset.card_filter, Finset.card_filter, ← Finset.sum_add_distrib]
    refine Finset.sum_congr rfl (fun p _ => ?_)
    have key : ∀ y, y ∈ typesAt sh p ∨ y ∈ typesAt sr p → y = t := by
      rintro y (hy | hy)
      · exact Finset.mem_singleton.1 ((ht p).1 hy)
      · exact Finset.mem_singleton.1 ((ht p).2 hy)
    by_cases h1 : t ∈ onlyIn sh sr p
    · have h2 : t ∉ onlyIn sr sh p := by
        simp only [onlyIn, Finset.mem_sdiff] at h1 ⊢; tauto
      rw [if_pos h1, if_neg h2]
      refine Finset.card_eq_one.2 ⟨t, ?_⟩
      ext y
      simp only [missedAt, Finset.mem_union, Finset.mem_singleton]
      constructor
      · simp only [onlyIn, Finset.mem_sdiff]
        rintro (h3 | h3)
        · exact key y (Or.inl h3.1)
        · exact key y (Or.inr h3.1)
      · rintro rfl; exact Or.inl h1
    · rw [if_neg h1, zero_add]
      by_cases h2 : t ∈ onlyIn sr sh p
      · rw [if_pos h2]
        refine Finset.card_eq_one.2 ⟨t, ?_⟩
        ext y
        simp only [missedAt, Finset.mem_union, Finset.mem_singleton]
        constructor
        · simp only [onlyIn, Finset.mem_sdiff]
          rintro (h3 | h3)
          · exact key y (Or.inl h3.1)
          · exact key y (Or.inr h3.1)
        · rintro rfl; exact Or.inr h2
      · rw [if_neg h2, Finset.card_eq_zero, Finset.eq_empty_iff_forall_notMem]
        intro y hy
        rw [missedAt, Finset.mem_union] at hy
        have : y = t := by
          rcases hy with h3 | h3
          · exact key y (Or.inl (Finset.mem_sdiff.1 h3).1)
          · exact key y (Or.inr (Finset.mem_sdiff.1 h3).1)
        rw [this] at hy
        tauto
  have hX : x = matchesOf sh sr t / (matchesOf sh sr t + st.edits.additions.length : ℚ) := by
    have hec : editCount st.edits = st.edits.additions.length := by simp [editCount, hsub, h0]
    rcases hw with hw | hw
    · obtain ⟨hl', hu, hbed, hpos, hval⟩ := boundary_value hw hp ho ha hb hx
      obtain ⟨mx, mn, hE⟩ := extremes_exist hu
      have hed := Except.ok.inj (hbed.symm.trans he)
      rw [C64_boundary rt kw hw hp ho hypothesis reference sh sr ha hb mx mn hE _ he x hx,
        credit_plain _ _ _ _ hsub, h0, hec, hM]
      simp [transpositionCredit, add_comm]
    · rw [(C64_unscaled rt kw hw hp ho hypothesis reference sh sr ha hb (identifyTypes sh sr)
        (fun t => mem_identifyTypes) _ he x).1 hx, hec, hM]
  have hcellM : entry m (some t) (some t) = matchesOf sh sr t := by
    have := (C38_cells rt kw hypothesis reference sh sr ha hb _ he m h).1 t
    rw [this, h0]; simp
  have hmatch : (matchesFrom rt 0 (sh.zip sr)).countP (fun x => decide (x = t)) =
      matchesOf sh sr t := count_matches rt hl t
  have hrow : rowTotal m (some t) = placed sr t := by
    rw [incrs_rowTotal hi, incrsOf_sum kw.weight kw.nT st (fun p _ v => if p = some t then v else 0),
      hm, h0, hsub]
    simp only [List.map_nil, List.sum_nil, add_zero]
    rw [sum_indicator, sum_indicator]
    simp only [Option.some.injEq]
    rw [hmatch, q2, c2]
    push_cast
    congr 2
    refine List.countP_congr (fun d _ => ?_)
    obtain ⟨ty, sd⟩ := d
    cases sd <;> simp [additionCell]
  have hcol : colTotal m (some t) = placed sh t := by
    rw [incrs_colTotal hi, incrsOf_sum kw.weight kw.nT st (fun _ a v => if a = some t then v else 0),
      hm, h0, hsub]
    simp only [List.map_nil, List.sum_nil, add_zero]
    rw [sum_indicator, sum_indicator]
    simp only [Option.some.injEq]
    rw [hmatch, q1, c1]
    push_cast
    congr 2
    refine List.countP_congr (fun d _ => ?_)
    obtain ⟨ty, sd⟩ := d
    cases sd <;> simp [additionCell]
  obtain ⟨a1, a2, a3⟩ := answer_class o site m (reachable_sound hr) hf (some t) v 1
  rw [a1, a2, a3]
  have hzero : matchesOf sh sr t = 0 → cell m (some t) (some t) = .int 0 := by
    intro hz
    have h1 := incrs_cell hi (some t) (some t)
    have hempty : (incrsOf kw.weight kw.nT st).filter
        (fun x => decide (x.p = some t ∧ x.a = some t)) = [] := by
      rw [List.filter_eq_nil_iff]
      intro y hy hc
      rw [decide_eq_true_eq] at hc
      simp only [incrsOf, h0, hsub, hm, List.map_nil, List.append_nil, List.mem_append,
        List.mem_map] at hy
      rcases hy with ⟨u, hu, rfl⟩ | ⟨d, _, rfl⟩
      · have hu' : u = t := Option.some.inj hc.1
        rw [hz, List.countP_eq_zero] at hmatch
        exact hmatch u hu (by simpa using hu')
      · unfold additionCell at hc
        cases hd : d.side <;> rw [hd] at hc <;> simp at hc
    rw [hempty] at h1
    have h2 := Except.ok.inj h1
    rw [← h2, cell_eq]
    simp [CM.row, dictGet]
  by_cases hz : matchesOf sh sr t = 0
  · have hc := hzero hz
    have p0 : precisionOf m (some t) = some 0 := by unfold precisionOf; rw [hc]; exact if_pos rfl
    have r0 : recallOf m (some t) = some 0 := by unfold recallOf; rw [hc]; exact if_pos rfl
    refine ⟨by rw [p0, hz]; simp, by rw [r0, hz]; simp, ?_⟩
    unfold fOf
    rw [p0, r0, hX, hz]
    simp [fOfRatios]
  · have hMpos : (0 : ℚ) < matchesOf sh sr t := by exact_mod_cast Nat.pos_of_ne_zero hz
    have hcv : (cell m (some t) (some t)).val = matchesOf sh sr t := hcellM
    have hobj : ¬ (cell m (some t) (some t)).isZeroObj = true := by
      intro hq
      revert hcv
      cases hcc : cell m (some t) (some t) with
      | int n =>
        rw [hcc] at hq
        simp only [PyNum.isZeroObj, isInt] at hq
        intro hv
        simp only [PyNum.val] at hv
        have : n = 0 := by
          simp at hq; tauto
        rw [this] at hv
        rw [← hv] at hMpos
        simp at hMpos
      | dec q => rw [hcc] at hq; cases hq
      | flt q => rw [hcc] at hq; cases hq
    have hb0 : (0 : ℚ) < placed sr t := by
      rw [q2]; push_cast; positivity
    have ha0 : (0 : ℚ) < placed sh t := by
      rw [q1]; push_cast; positivity
    have pp : precisionOf m (some t) = some ((matchesOf sh sr t : ℚ) / placed sr t) := by
      rw [precisionOf, ratioOf, if_neg hobj, hrow, if_neg hb0.ne', hcv]
    have rr : recallOf m (some t) = some ((matchesOf sh sr t : ℚ) / placed sh t) := by
      rw [recallOf, ratioOf, if_neg hobj, hcol, if_neg ha0.ne', hcv]
    refine ⟨pp, rr, ?_⟩
    have hsum : (matchesOf sh sr t + st.edits.additions.length : ℚ) =
        placed sh t + placed sr t - matchesOf sh sr t := by
      rw [q1, q2, hA, ← c1, ← c2]; push_cast; ring
    have hX1 : (0 : ℚ) < matchesOf sh sr t + st.edits.additions.length := by positivity
    unfold fOf
    rw [pp, rr]
    simp only
    have pd : (0 : ℚ) < (matchesOf sh sr t : ℚ) / placed sr t := by positivity
    have rd : (0 : ℚ) < (matchesOf sh sr t : ℚ) / placed sh t := by positivity
    rw [fOfRatios, if_neg (by rintro (h1 | h1) <;> linarith), if_neg (by linarith), hX, hsum]
    rw [hsum] at hX1
    congr 1
    have e1 : (1 : ℚ) + matchesOf sh sr t / (placed sh t + placed sr t - matchesOf sh sr t) =
        (placed sh t + placed sr t) / (placed sh t + placed sr t - matchesOf sh sr t) := by
      field_simp; ring
    rw [e1]
    field_simp
    ring

example : (boundaryConfusionMatrix .ascending {} (massSeg [2, 3, 6]) (massSeg [2, 9])).toOption.map
      (fun m => (answer (precision ascB [] (some (some 1)) .micro m),
        answer (recall ascB [] (some (some 1)) .micro m),
        answer (fmeasure ascB [] (some (some 1)) 1 .micro m))) =
      some (some 1, some (1 / 2), some (2 / 3)) ∧
    boundarySimilarity .ascending {} (massSeg [2, 3, 6]) (massSeg [2, 9]) = .ok (.num (.dec (1 / 2))) :=
  by decide +kernel

end SegEval.Props
