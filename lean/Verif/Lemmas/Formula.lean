import Verif.Lemmas.Swap
import Verif.Spec.Formula

/-!
# Lemmas for the published formulas
-/

namespace SegEval

open Spec

/-- How often a type occurs in the list of matches. -/
theorem count_matchesFrom (rt : Runtime) {a b : BString} (hl : a.length = b.length) (t : ℤ) :
    (matchesFrom rt 0 (a.zip b)).count t =
      ((Finset.range a.length).filter (fun p => t ∈ typesAt a p ∧ t ∈ typesAt b p)).card := by
  have key : ∀ (ps : List (Finset ℤ × Finset ℤ)) i, (matchesFrom rt i ps).count t =
      (ps.map (fun p => if t ∈ p.1 ∩ p.2 then 1 else 0)).sum := by
    intro ps
    induction ps with
    | nil => intro i; rfl
    | cons p ps ih =>
      intro i
      rw [matchesFrom, List.count_append, ih, List.map_cons, List.sum_cons]
      congr 1
      have hn := rt.order_nodup [4, i] (p.1 ∩ p.2)
      have hm : t ∈ rt.order [4, i] (p.1 ∩ p.2) ↔ t ∈ p.1 ∩ p.2 := by
        rw [← List.mem_toFinset, rt.order_toFinset]
      rw [hn.count]
      simp only [hm]
  rw [key, zip_eq_map a b hl, List.map_map, list_sum_range, Finset.card_filter]
  refine Finset.sum_congr rfl (fun p _ => ?_)
  simp only [Function.comp_apply, Finset.mem_inter]

/-- How often a type occurs in the list of misses. -/
theorem count_missesFrom (rt : Runtime) {a b : BString} (hl : a.length = b.length) (t : ℤ) :
    (missesFrom rt 0 (a.zip b)).count t =
      ((Finset.range a.length).filter (fun p => t ∈ missedAt a b p)).card := by
  have key : ∀ (ps : List (Finset ℤ × Finset ℤ)) i, (missesFrom rt i ps).count t =
      (ps.map (fun p => if t ∈ symmDiff p.1 p.2 then 1 else 0)).sum := by
    intro ps
    induction ps with
    | nil => intro i; rfl
    | cons p ps ih =>
      intro i
      rw [missesFrom, List.count_append, ih, List.map_cons, List.sum_cons]
      congr 1
      have hn := rt.order_nodup [5, i] (symmDiff p.1 p.2)
      have hm : t ∈ rt.order [5, i] (symmDiff p.1 p.2) ↔ t ∈ symmDiff p.1 p.2 := by
        rw [← List.mem_toFinset, rt.order_toFinset]
      rw [hn.count]
      simp only [hm]
  rw [key, zip_eq_map a b hl, List.map_map, list_sum_range, Finset.card_filter]
  rfl

theorem extremes_pyMax {a b : BString} {mx mn x : ℤ} (h : Extremes a b mx mn)
    (hx : pyMax (identifyTypes a b) = .ok x) : x = mx := by
  have hne : identifyTypes a b ≠ ∅ :=
    Finset.nonempty_iff_ne_empty.1 ⟨mx, mem_identifyTypes.2 h.usedMax⟩
  obtain ⟨y, hy, h1, h2⟩ := pyMax_ok hne
  rw [hx, Except.ok.injEq] at hy
  subst hy
  exact le_antisymm (h.le_max _ (mem_identifyTypes.1 h1)) (h2 _ (mem_identifyTypes.2 h.usedMax))

theorem extremes_pyMin {a b : BString} {mx mn x : ℤ} (h : Extremes a b mx mn)
    (hx : pyMin (identifyTypes a b) = .ok x) : x = mn := by
  have hne : identifyTypes a b ≠ ∅ :=
    Finset.nonempty_iff_ne_empty.1 ⟨mx, mem_identifyTypes.2 h.usedMax⟩
  obtain ⟨y, hy, h1, h2⟩ := pyMin_ok hne
  rw [hx, Except.ok.injEq] at hy
  subst hy
  exact le_antisymm (h2 _ (mem_identifyTypes.2 h.usedMin)) (h.min_le _ (mem_identifyTypes.1 h1))

theorem sum_one_sub {α : Type _} (f : α → ℚ) (l : List α) :
    (l.map (fun x => 1 - f x)).sum = l.length - (l.map f).sum := by
  induction l with
  | nil => simp
  | cons x xs ih => simp only [List.map_cons, List.sum_cons, ih, List.length_cons]; push_cast; ring

theorem scriptCredit_eq (nT mx mn : ℤ) (m : ℕ) (e : Edits) :
    scriptCredit nT mx mn m e =
      ((editCount e + m : ℕ) : ℚ) - scriptCost nT mx mn e := by
  rw [scriptCredit, scriptCost, sum_one_sub, sum_one_sub, editCount]
  push_cast
  ring

theorem sum_substitutionCost (mx mn : ℤ) (l : List Substitution) :
    (l.map (substitutionCost mx mn)).sum =
      ((l.map (fun s => |s.typeA - s.typeB|)).sum : ℤ) / ((mx - mn + 1 : ℤ) : ℚ) := by
  induction l with
  | nil => simp
  | cons x xs ih =>
    simp only [List.map_cons, List.sum_cons, ih, substitutionCost]
    push_cast
    ring

theorem sum_transpositionCost (nT : ℤ) (l : List Transposition) (h : ∀ t ∈ l, t.start < t.stop) :
    (l.map (transpositionCost nT)).sum =
      ((l.map (fun t => |(t.start : ℤ) - (t.stop : ℤ)|)).sum : ℤ) / (nT : ℚ) := by
  induction l with
  | nil => simp
  | cons x xs ih =>
    have hx := h x (by simp)
    have e : |(x.start : ℤ) - (x.stop : ℤ)| = (x.stop : ℤ) - x.start := by
      rw [abs_of_neg (by omega)]; ring
    simp only [List.map_cons, List.sum_cons, ih (fun t ht => h t (by simp [ht])),
      transpositionCost, e]
    push_cast
    ring

/-- The default weighted count is the cost of the script. -/
theorem default_cost {rt : Runtime} {nT : ℤ} {a b : BString} {st : Statistics} {mx mn : ℤ}
    (hx : Extremes a b mx mn) (h : statisticsOfStrings rt .default nT a b = .ok st) :
    st.countEdits = .dec (scriptCost nT mx mn st.edits) := by
  obtain ⟨_, _, he, hc, _⟩ := statistics_ok h
  obtain ⟨c, h1, _, _, _, _, mx', mn', h2, h3, h4⟩ :=
    default_count (rt := rt) (a := a) (b := b) (statistics_nT_ne h) (statistics_types_ne h)
  rw [h1, Except.ok.injEq] at hc
  rw [extremes_pyMax hx h2, extremes_pyMin hx h3] at h4
  rw [← hc, h4, he, scriptCost, sum_substitutionCost, sum_transpositionCost]
  intro t ht
  exact (allT_genuine rt a b nT t ht).ordered

theorem returns_num {v : PyNum} {x : ℚ} : Returns (.ok (.num v)) x ↔ v.val = x := by
  constructor
  · rintro ⟨w, hw, hx⟩
    simp only [Except.ok.injEq, MetricOut.num.injEq] at hw
    rw [hw]; exact hx
  · intro h; exact ⟨v, rfl, h⟩

end SegEval
