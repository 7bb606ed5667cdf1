import Verif.Spec.CoderPairs
import Verif.Lemmas.AgreementForm
import Verif.Lemmas.AgreementS

/-!
# The jobs of two coders
-/

namespace SegEval

open Spec

/-- Quotients of which the quotient of the sums is a mean. -/
theorem sums_within {α : Type _} (l : List α) (N D : α → ℚ) (h0 : ∀ p ∈ l, 0 ≤ D p)
    (hz : ∀ p ∈ l, D p = 0 → N p = 0) (hs : 0 < (l.map D).sum) :
    (∀ p ∈ l, 0 < D p → N p / D p = (l.map N).sum / (l.map D).sum) ∨
    (∃ p ∈ l, 0 < D p ∧ N p / D p < (l.map N).sum / (l.map D).sum) ∧
    ∃ p ∈ l, 0 < D p ∧ (l.map N).sum / (l.map D).sum < N p / D p := by
  set v := (l.map N).sum / (l.map D).sum with hv
  have hsum : (l.map (fun p => N p - v * D p)).sum = 0 := by
    have : (l.map (fun p => N p - v * D p)).sum = (l.map N).sum - v * (l.map D).sum := by
      clear_value v
      clear h0 hz hs hv
      induction l with
      | nil => simp
      | cons a l ih => simp only [List.map_cons, List.sum_cons, ih]; ring
    rw [this, hv, div_mul_cancel₀ _ hs.ne', sub_self]
  have hle : ∀ p ∈ l, 0 < D p → (v ≤ N p / D p ↔ 0 ≤ N p - v * D p) := by
    intro p _ hp
    rw [le_div_iff₀ hp, sub_nonneg]
  have hge : ∀ p ∈ l, 0 < D p → (N p / D p ≤ v ↔ 0 ≤ v * D p - N p) := by
    intro p _ hp
    rw [div_le_iff₀ hp, sub_nonneg]
  have zero : ∀ p ∈ l, ¬ 0 < D p → N p - v * D p = 0 := by
    intro p hp hn
    have : D p = 0 := le_antisymm (not_lt.1 hn) (h0 p hp)
    rw [hz p hp this, this]; ring
  have all : (∀ p ∈ l, N p - v * D p = 0) → ∀ p ∈ l, 0 < D p → N p / D p = v := by
    intro h p hp hpos
    rw [div_eq_iff hpos.ne']
    linarith [h p hp]
  by_cases h1 : ∃ p ∈ l, 0 < D p ∧ N p / D p < v
  · by_cases h2 : ∃ p ∈ l, 0 < D p ∧ v < N p / D p
    · exact .inr ⟨h1, h2⟩
    · left
      apply all
      push Not at h2
      have h3 : ∀ p ∈ l, 0 ≤ v * D p - N p := by
        intro p hp
        by_cases hpos : 0 < D p
        · exact (hge p hp hpos).1 (h2 p hp hpos)
        · linarith [zero p hp hpos]
      have h4 : (l.map (fun p => v * D p - N p)).sum = 0 := by
        have e : ∀ l' : List α, (l'.map (fun p => v * D p - N p)).sum =
            -(l'.map (fun p => N p - v * D p)).sum := by
          intro l'
          induction l' with
          | nil => simp
          | cons a l' ih => simp only [List.map_cons, List.sum_cons, ih]; ring
        rw [e, hsum, neg_zero]
      intro p hp
      have := (sum_le_eq l (fun _ => 0) (fun p => v * D p - N p) h3).2.1 (by
        rw [h4]; simp) p hp
      linarith
  · left
    apply all
    push Not at h1
    have h3 : ∀ p ∈ l, 0 ≤ N p - v * D p := by
      intro p hp
      by_cases hpos : 0 < D p
      · exact (hle p hp hpos).1 (h1 p hp hpos)
      · rw [zero p hp hpos]
    intro p hp
    have := (sum_le_eq l (fun _ => 0) (fun p => N p - v * D p) h3).2.1 (by rw [hsum]; simp) p hp
    linarith

section
variable {items : Items} {m n : Name}

theorem ofPair_comm (items : Items) (m n : Name) : ofPair items m n = ofPair items n m := by
  unfold ofPair
  simp only [or_comm]

theorem dictGet_only (cs : Codings) (m n c : Name) :
    dictGet (cs.filter (fun e => decide (e.1 = m ∨ e.1 = n))) c =
      if c = m ∨ c = n then dictGet cs c else none := by
  induction cs with
  | nil => simp [dictGet]
  | cons e es ih =>
    obtain ⟨k, s⟩ := e
    by_cases hk : k = m ∨ k = n
    · rw [List.filter_cons_of_pos (by simpa using hk)]
      simp only [dictGet, ih]
      by_cases hc : k = c
      · subst hc; simp [hk]
      · simp [hc]
    · rw [List.filter_cons_of_neg (by simpa using hk), ih]
      by_cases hc : k = c
      · subst hc; simp [hk]
      · simp [dictGet, hc]

theorem dictGet_ofPair (items : Items) (m n l : Name) : dictGet (ofPair items m n) l =
    (dictGet items l).map (fun cs => cs.filter (fun c => decide (c.1 = m ∨ c.1 = n))) := by
  induction items with
  | nil => rfl
  | cons e es ih =>
    simp only [ofPair, List.map_cons, dictGet] at ih ⊢
    split
    · rfl
    · exact ih

theorem coded_ofPair {l c : Name} {s : Seg} :
    Coded (ofPair items m n) l c s ↔ Coded items l c s ∧ (c = m ∨ c = n) := by
  unfold Coded
  rw [dictGet_ofPair]
  constructor
  · rintro ⟨cs, h1, h2⟩
    obtain ⟨cs', h3, rfl⟩ := Option.map_eq_some_iff.1 h1
    rw [dictGet_only] at h2
    split at h2
    · rename_i hc; exact ⟨⟨cs', h3, h2⟩, hc⟩
    · cases h2
  · rintro ⟨⟨cs, h1, h2⟩, hc⟩
    exact ⟨_, by rw [h1]; rfl, by rw [dictGet_only, if_pos hc, h2]⟩

theorem isDict_ofPair (hd : IsDict items) (m n : Name) : IsDict (ofPair items m n) := by
  refine ⟨?_, ?_⟩
  · rw [ofPair, List.map_map]; exact hd.1
  · intro e he
    obtain ⟨it, hit, rfl⟩ := List.mem_map.1 he
    exact (hd.2 it hit).sublist (List.filter_sublist.map _)

theorem ofPair_labels (items : Items) (m n : Name) : (ofPair items m n).map Prod.fst = items.map Prod.fst := by
  rw [ofPair, List.map_map]; rfl

end

/-! ## Actual agreement -/

section
variable {cmp : Compare} {fmt kw : BoundaryFormat} {o o' : ClassOrder Name} {data : AgrData} {m n : Name}

theorem order_pair (o : ClassOrder Name) (hne : m ≠ n) :
    o.order [] {m, n} = [m, n] ∨ o.order [] {m, n} = [n, m] := by
  have h1 := order_length o {m, n}
  rw [Finset.card_pair hne] at h1
  have h2 := o.mem [] {m, n}
  have h3 := o.nodup [] {m, n}
  match hl : o.order [] {m, n} with
  | [] => rw [hl] at h1; simp at h1
  | [_] => rw [hl] at h1; simp at h1
  | _ :: _ :: _ :: _ => rw [hl] at h1; simp at h1
  | [a, b] =>
    rw [hl] at h2 h3
    have ha := (h2 a).1 (by simp)
    have hb := (h2 b).1 (by simp)
    simp only [Finset.mem_insert, Finset.mem_singleton] at ha hb
    have hab : a ≠ b := by simpa using h3
    rcases ha with rfl | rfl <;> rcases hb with rfl | rfl
    · exact absurd rfl hab
    · exact .inl rfl
    · exact .inr rfl
    · exact absurd rfl hab

/-- The sums of the jobs of one pair. -/
def pairSum (cmp : Compare) (fmt : BoundaryFormat) (items : Items) (f : Row → ℚ) (p : Name × Name) : ℚ :=
  (items.map (fun it => f (rowD cmp fmt (p, it)))).sum

theorem numSum_pairs : numSum cmp fmt (jobsOf o data) =
    ((combinations2 (o.order [] (getCoders data))).map
      (pairSum cmp fmt data.items (fun r => r.num.val))).sum := by
  rw [numSum, jobsOf, jobs_sum]; rfl

theorem denSum_pairs : denSum cmp fmt (jobsOf o data) =
    ((combinations2 (o.order [] (getCoders data))).map
      (pairSum cmp fmt data.items (fun r => r.den.val))).sum := by
  rw [denSum, jobsOf, jobs_sum]; rfl

theorem jobRow_ofPair {p : Name × Name} (hp : p = (m, n) ∨ p = (n, m)) (it : Name × Codings) :
    jobRow cmp fmt (p, (it.1, it.2.filter (fun c => decide (c.1 = m ∨ c.1 = n)))) =
      jobRow cmp fmt (p, it) := by
  unfold jobRow
  simp only [dictGet_only]
  rcases hp with rfl | rfl <;> simp

/-- All coders of an agreement code all items. -/
theorem coded_all (hok : RowsOk cmp fmt (jobsOf o data)) (hm : m ∈ getCoders data)
    (hn : n ∈ getCoders data) (hne : m ≠ n) {it : Name × Codings} (hit : it ∈ data.items) :
    ∃ sm sn, dictGet it.2 m = some sm ∧ dictGet it.2 n = some sn := by
  have h1 := (o.mem [] _ _).2 hm
  have h2 := (o.mem [] _ _).2 hn
  rcases pair_order h1 h2 hne with hp | hp
  · obtain ⟨sa, sb, a1, a2, -⟩ := jobRow_parts (hok ((m, n), it) (mem_jobs.2 ⟨hp, hit⟩))
    exact ⟨sa, sb, a1, a2⟩
  · obtain ⟨sa, sb, a1, a2, -⟩ := jobRow_parts (hok ((n, m), it) (mem_jobs.2 ⟨hp, hit⟩))
    exact ⟨sb, sa, a2, a1⟩

theorem getCoders_ofPair (hd : IsDict data.items) (hok : RowsOk cmp fmt (jobsOf o data))
    (hi : data.items ≠ []) (hm : m ∈ getCoders data) (hn : n ∈ getCoders data) (hne : m ≠ n) :
    getCoders (.dict (ofPair data.items m n)) = {m, n} := by
  ext c
  rw [codersMatch_dict (isDict_ofPair hd m n) c]
  simp only [Finset.mem_insert, Finset.mem_singleton]
  obtain ⟨it, hit⟩ := List.exists_mem_of_ne_nil _ hi
  obtain ⟨sm, sn, h1, h2⟩ := coded_all hok hm hn hne hit
  constructor
  · rintro ⟨l, s, h⟩; exact (coded_ofPair.1 h).2
  · rintro (rfl | rfl)
    · exact ⟨it.1, sm, coded_ofPair.2 ⟨⟨it.2, dictGet_of_mem hd.1 hit, h1⟩, .inl rfl⟩⟩
    · exact ⟨it.1, sn, coded_ofPair.2 ⟨⟨it.2, dictGet_of_mem hd.1 hit, h2⟩, .inr rfl⟩⟩

/-- The rows of a pair of coders alone are those of the pair among all coders. -/
theorem rows_ofPair (hd : IsDict data.items) (hok : RowsOk cmp fmt (jobsOf o data))
    (hsym : RowsSym cmp cmp fmt (o.order [] (getCoders data)) data.items)
    (hi : data.items ≠ []) (hp : (m, n) ∈ combinations2 (o.order [] (getCoders data))) :
    ∃ p, (p = (m, n) ∨ p = (n, m)) ∧
      jobsOf o' (.dict (ofPair data.items m n)) = (ofPair data.items m n).map (fun it => (p, it)) ∧
      ∀ it ∈ data.items, jobRow cmp fmt (p, (it.1, it.2.filter (fun c => decide (c.1 = m ∨ c.1 = n)))) =
        .ok (if p = (m, n) then rowD cmp fmt ((m, n), it) else swapRow (rowD cmp fmt ((m, n), it))) := by
  have hsub := (mem_combinations2 _ _ _).1 hp
  have hne : m ≠ n := by have := hsub.nodup (o.nodup [] _); simpa using this
  have hm' := hsub.subset (a := m) (by simp)
  have hn' := hsub.subset (a := n) (by simp)
  have hm := (o.mem [] _ _).1 hm'
  have hn := (o.mem [] _ _).1 hn'
  have hg := getCoders_ofPair hd hok hi hm hn hne
  rcases order_pair o' hne with ho | ho
  · refine ⟨(m, n), .inl rfl, ?_, ?_⟩
    · rw [jobsOf, hg, ho]; simp [jobs, combinations2]; rfl
    · intro it hit
      rw [jobRow_ofPair (.inl rfl), if_pos rfl]
      exact hok _ (mem_jobs.2 ⟨hp, hit⟩)
  · refine ⟨(n, m), .inr rfl, ?_, ?_⟩
    · rw [jobsOf, hg, ho]; simp [jobs, combinations2]; rfl
    · intro it hit
      rw [jobRow_ofPair (.inr rfl), if_neg (fun e => hne (Prod.mk.inj e).2)]
      have h2 := (hsym m hm' n hn' hne it hit).2
      rw [hok ((m, n), it) (mem_jobs.2 ⟨hp, hit⟩)] at h2
      cases h3 : jobRow cmp fmt ((n, m), it) with
      | error e => rw [h3] at h2; cases h2
      | ok r =>
        rw [h3] at h2
        rw [show r = _ from Option.some.inj h2]

theorem rowsOk_ofPair (hd : IsDict data.items) (hok : RowsOk cmp fmt (jobsOf o data))
    (hsym : RowsSym cmp cmp fmt (o.order [] (getCoders data)) data.items)
    (hi : data.items ≠ []) (hp : (m, n) ∈ combinations2 (o.order [] (getCoders data))) :
    RowsOk cmp fmt (jobsOf o' (.dict (ofPair data.items m n))) ∧
    numSum cmp fmt (jobsOf o' (.dict (ofPair data.items m n))) =
      pairSum cmp fmt data.items (fun r => r.num.val) (m, n) ∧
    denSum cmp fmt (jobsOf o' (.dict (ofPair data.items m n))) =
      pairSum cmp fmt data.items (fun r => r.den.val) (m, n) := by
  obtain ⟨p, -, hj, hrow⟩ := rows_ofPair (o' := o') hd hok hsym hi hp
  refine ⟨?_, ?_, ?_⟩
  · rw [hj]
    intro j hjm
    obtain ⟨it', hit', rfl⟩ := List.mem_map.1 hjm
    obtain ⟨it, hit, rfl⟩ := List.mem_map.1 hit'
    unfold rowD
    rw [hrow it hit]
  · rw [numSum, hj, ofPair, List.map_map, List.map_map, pairSum]
    refine congrArg List.sum (List.map_congr_left fun it hit => ?_)
    simp only [Function.comp_def]
    rw [rowD, hrow it hit]
    by_cases h : p = (m, n)
    · simp only [h, if_true]
    · simp only [h, if_false, swapRow]
  · rw [denSum, hj, ofPair, List.map_map, List.map_map, pairSum]
    refine congrArg List.sum (List.map_congr_left fun it hit => ?_)
    simp only [Function.comp_def]
    rw [rowD, hrow it hit]
    by_cases h : p = (m, n)
    · simp only [h, if_true]
    · simp only [h, if_false, swapRow]

end

end SegEval
