import Verif.Lemmas.Bed
import Verif.Lemmas.Format
import Verif.Spec.Similarity
import Mathlib.Tactic.Positivity

namespace SegEval

open Spec

/-! ## Boundary types -/

theorem mem_foldl_union (l : List (Finset ℤ)) (acc : Finset ℤ) (t : ℤ) :
    t ∈ l.foldl (fun acc position => acc ∪ position) acc ↔ t ∈ acc ∨ ∃ x ∈ l, t ∈ x := by
  induction l generalizing acc with
  | nil => simp
  | cons x xs ih =>
    rw [List.foldl_cons, ih, Finset.mem_union]
    simp only [List.mem_cons]
    constructor
    · rintro ((h | h) | ⟨y, h1, h2⟩)
      · exact Or.inl h
      · exact Or.inr ⟨x, Or.inl rfl, h⟩
      · exact Or.inr ⟨y, Or.inr h1, h2⟩
    · rintro (h | ⟨y, rfl | h1, h2⟩)
      · exact Or.inl (Or.inl h)
      · exact Or.inl (Or.inr h2)
      · exact Or.inr ⟨y, h1, h2⟩

theorem mem_typesAt {s : BString} {t : ℤ} : (∃ p, t ∈ typesAt s p) ↔ ∃ x ∈ s, t ∈ x := by
  constructor
  · rintro ⟨p, hp⟩
    unfold typesAt at hp
    cases h : s[p]? with
    | none => rw [h] at hp; simp at hp
    | some x => rw [h] at hp; exact ⟨x, List.mem_of_getElem? h, hp⟩
  · rintro ⟨x, hx, ht⟩
    obtain ⟨p, hp⟩ := List.mem_iff_getElem?.1 hx
    exact ⟨p, by rw [typesAt_of_get hp]; exact ht⟩

theorem mem_identifyTypes {a b : BString} {t : ℤ} :
    t ∈ identifyTypes a b ↔ UsesType a b t := by
  rw [identifyTypes, mem_foldl_union]
  simp only [Finset.notMem_empty, false_or, List.mem_append, UsesType, exists_or, mem_typesAt]
  constructor
  · rintro ⟨x, h | h, ht⟩
    · exact Or.inl ⟨x, h, ht⟩
    · exact Or.inr ⟨x, h, ht⟩
  · rintro (⟨x, h, ht⟩ | ⟨x, h, ht⟩)
    · exact ⟨x, Or.inl h, ht⟩
    · exact ⟨x, Or.inr h, ht⟩

theorem typesAt_subset_left (a b : BString) (p : ℕ) : typesAt a p ⊆ identifyTypes a b :=
  fun _ ht => mem_identifyTypes.2 ⟨p, Or.inl ht⟩

theorem typesAt_subset_right (a b : BString) (p : ℕ) : typesAt b p ⊆ identifyTypes a b :=
  fun _ ht => mem_identifyTypes.2 ⟨p, Or.inr ht⟩

theorem identifyTypes_comm (a b : BString) : identifyTypes a b = identifyTypes b a := by
  ext t; rw [mem_identifyTypes, mem_identifyTypes]; simp only [UsesType, or_comm]

/-! ## Greatest and least type -/

theorem foldl_max_spec (l : List ℤ) (x : ℤ) :
    l.foldl max x ∈ x :: l ∧ ∀ y ∈ x :: l, y ≤ l.foldl max x := by
  induction l generalizing x with
  | nil => simp
  | cons z zs ih =>
    obtain ⟨h1, h2⟩ := ih (max x z)
    refine ⟨?_, ?_⟩
    · rw [List.foldl_cons]
      rcases List.mem_cons.1 h1 with h | h
      · rcases max_choice x z with hm | hm <;> rw [h, hm] <;> simp
      · simp [h]
    · intro y hy
      rw [List.foldl_cons]
      have hm := h2 (max x z) (by simp)
      simp only [List.mem_cons] at hy
      rcases hy with rfl | rfl | hy
      · exact (le_max_left _ _).trans hm
      · exact (le_max_right _ _).trans hm
      · exact h2 y (by simp [hy])

theorem foldl_min_spec (l : List ℤ) (x : ℤ) :
    l.foldl min x ∈ x :: l ∧ ∀ y ∈ x :: l, l.foldl min x ≤ y := by
  induction l generalizing x with
  | nil => simp
  | cons z zs ih =>
    obtain ⟨h1, h2⟩ := ih (min x z)
    refine ⟨?_, ?_⟩
    · rw [List.foldl_cons]
      rcases List.mem_cons.1 h1 with h | h
      · rcases min_choice x z with hm | hm <;> rw [h, hm] <;> simp
      · simp [h]
    · intro y hy
      rw [List.foldl_cons]
      have hm := h2 (min x z) (by simp)
      simp only [List.mem_cons] at hy
      rcases hy with rfl | rfl | hy
      · exact hm.trans (min_le_left _ _)
      · exact hm.trans (min_le_right _ _)
      · exact h2 y (by simp [hy])

theorem pyMax_empty : pyMax ∅ = .error .valueError := by
  have : sortedZ ∅ = [] := List.eq_nil_of_length_eq_zero (by rw [sortedZ_length]; rfl)
  rw [pyMax, this]

theorem pyMax_ok {s : Finset ℤ} (h : s ≠ ∅) : ∃ m, pyMax s = .ok m ∧ m ∈ s ∧ ∀ x ∈ s, x ≤ m := by
  unfold pyMax
  cases hs : sortedZ s with
  | nil =>
    have := sortedZ_length s
    rw [hs] at this
    exact absurd (Finset.card_eq_zero.1 this.symm) h
  | cons x xs =>
    obtain ⟨h1, h2⟩ := foldl_max_spec xs x
    refine ⟨_, rfl, ?_, ?_⟩
    · rw [← mem_sortedZ, hs]; exact h1
    · intro y hy; rw [← mem_sortedZ, hs] at hy; exact h2 y hy

theorem pyMin_ok {s : Finset ℤ} (h : s ≠ ∅) : ∃ m, pyMin s = .ok m ∧ m ∈ s ∧ ∀ x ∈ s, m ≤ x := by
  unfold pyMin
  cases hs : sortedZ s with
  | nil =>
    have := sortedZ_length s
    rw [hs] at this
    exact absurd (Finset.card_eq_zero.1 this.symm) h
  | cons x xs =>
    obtain ⟨h1, h2⟩ := foldl_min_spec xs x
    refine ⟨_, rfl, ?_, ?_⟩
    · rw [← mem_sortedZ, hs]; exact h1
    · intro y hy; rw [← mem_sortedZ, hs] at hy; exact h2 y hy

/-! ## Scaled weights -/

theorem scalePairs_ok (L : List (ℤ × ℤ)) {m : ℤ} (hm : m ≠ 0) :
    scalePairs L m = .ok (.dec ((spanSum L : ℚ) / m)) := by
  have : (m : ℚ) ≠ 0 := by exact_mod_cast hm
  simp [scalePairs, PyNum.truediv, PyNum.decDiv, this]

theorem spanSum_eq (L : List (ℤ × ℤ)) : spanSum L = (L.map (fun p => |p.1 - p.2|)).sum := by
  induction L with
  | nil => rfl
  | cons p ps ih => simp [spanSum, ih]

theorem spanSum_bounds (L : List (ℤ × ℤ)) (m : ℤ)
    (h : ∀ p ∈ L, 1 ≤ |p.1 - p.2| ∧ |p.1 - p.2| + 1 ≤ m) :
    (L.length : ℤ) ≤ spanSum L ∧ spanSum L + L.length ≤ L.length * m := by
  induction L with
  | nil => simp [spanSum]
  | cons p ps ih =>
    have h1 := h p (by simp)
    obtain ⟨h2, h3⟩ := ih (fun q hq => h q (by simp [hq]))
    simp only [spanSum, List.length_cons]
    push_cast
    constructor
    · omega
    · rw [add_mul]; omega

/-- The scaled weight of `k` pairs lies strictly between 0 and `k` unless there are none. -/
theorem scaled_bounds (L : List (ℤ × ℤ)) (m : ℤ)
    (h : ∀ p ∈ L, 1 ≤ |p.1 - p.2| ∧ |p.1 - p.2| + 1 ≤ m) :
    (L = [] ∧ (spanSum L : ℚ) / m = 0) ∨
    (L ≠ [] ∧ 0 < (spanSum L : ℚ) / m ∧ (spanSum L : ℚ) / m < L.length) := by
  by_cases hL : L = []
  · subst hL; left; simp [spanSum]
  · right
    obtain ⟨h1, h2⟩ := spanSum_bounds L m h
    have hlen : 0 < L.length := List.length_pos_of_ne_nil hL
    obtain ⟨p, hp⟩ := List.exists_mem_of_ne_nil L hL
    have hm : 0 < m := by have := h p hp; omega
    have hm' : (0 : ℚ) < m := by exact_mod_cast hm
    refine ⟨hL, ?_, ?_⟩
    · apply div_pos _ hm'
      have : 0 < spanSum L := by omega
      exact_mod_cast this
    · rw [div_lt_iff₀ hm']
      have : spanSum L < L.length * m := by omega
      exact_mod_cast this

/-! ## What the search reports -/

theorem subsOf_mem {rt : Runtime} {i : ℕ} {A B : Finset ℤ} {s : Substitution}
    (h : s ∈ subsOf rt i A B) : s.typeA ∈ A ∧ s.typeB ∈ B := by
  obtain ⟨p, hp, rfl⟩ := List.mem_map.1 h
  rw [rt.orderP_mem] at hp
  have := (bestPairs_cheapest A B).1
  exact ⟨this.left p hp, this.right p hp⟩

theorem substitution_mem {rt : Runtime} {a b : BString} {nT : ℤ} {s : Substitution}
    (h : s ∈ (editsOf rt a b nT).substitutions) :
    ∃ p, s.typeA ∈ onlyIn a b p ∧ s.typeB ∈ onlyIn b a p := by
  simp only [editsOf, List.mem_flatMap] at h
  obtain ⟨p, _, hp⟩ := h
  have := subsOf_mem hp
  exact ⟨p, (mem_leftover.1 this.1).1, (mem_leftover.1 this.2).1⟩

/-- The value of the default weighting. -/
theorem default_count {rt : Runtime} {a b : BString} {nT : ℤ} (hn : nT ≠ 0)
    (ht : identifyTypes a b ≠ ∅) :
    ∃ c : ℚ, countEdits .default nT (identifyTypes a b) (editsOf rt a b nT) = .ok (.dec c) ∧
      0 ≤ c ∧ c ≤ editCount (editsOf rt a b nT) ∧
      (c = 0 ↔ editCount (editsOf rt a b nT) = 0) ∧
      (c = editCount (editsOf rt a b nT) ↔
        (editsOf rt a b nT).substitutions = [] ∧ (editsOf rt a b nT).transpositions = []) ∧
      ∃ mx mn : ℤ, pyMax (identifyTypes a b) = .ok mx ∧ pyMin (identifyTypes a b) = .ok mn ∧
        c = ((editsOf rt a b nT).additions.length : ℚ) +
          (((editsOf rt a b nT).substitutions.map (fun s => |s.typeA - s.typeB|)).sum : ℤ) /
            ((mx - mn + 1 : ℤ) : ℚ) +
          (((editsOf rt a b nT).transpositions.map
            (fun t => |(t.start : ℤ) - (t.stop : ℤ)|)).sum : ℤ) / (nT : ℚ) := by
  obtain ⟨mx, hmx, hmx1, hmx2⟩ := pyMax_ok ht
  obtain ⟨mn, hmn, hmn1, hmn2⟩ := pyMin_ok ht
  set e := editsOf rt a b nT with he
  set Ls : List (ℤ × ℤ) := e.substitutions.map (fun s => (s.typeA, s.typeB)) with hLs
  set Lt : List (ℤ × ℤ) := e.transpositions.map (fun t => ((t.start : ℤ), (t.stop : ℤ))) with hLt
  have hmn' : mn ≤ mx := hmn2 mx hmx1
  have hne : mx - mn + 1 ≠ 0 := by omega
  have hbs := scaled_bounds Ls (mx - mn + 1) (by
    intro p hp
    rw [hLs, List.mem_map] at hp
    obtain ⟨s, hs, rfl⟩ := hp
    obtain ⟨q, h1, h2⟩ := substitution_mem hs
    have u1 : s.typeA ∈ identifyTypes a b := typesAt_subset_left a b q (mem_onlyIn.1 h1).1
    have u2 : s.typeB ∈ identifyTypes a b := typesAt_subset_right a b q (mem_onlyIn.1 h2).1
    have hneq : s.typeA ≠ s.typeB := by
      intro h; rw [h] at h1; exact (mem_onlyIn.1 h1).2 (mem_onlyIn.1 h2).1
    have v1 := hmx2 _ u1
    have v2 := hmx2 _ u2
    have v3 := hmn2 _ u1
    have v4 := hmn2 _ u2
    simp only
    constructor
    · rcases abs_cases (s.typeA - s.typeB) with h | h <;> omega
    · rcases abs_cases (s.typeA - s.typeB) with h | h <;> omega)
  have hbt := scaled_bounds Lt nT (by
    intro p hp
    rw [hLt, List.mem_map] at hp
    obtain ⟨t, ht, rfl⟩ := hp
    have hg := allT_genuine rt a b nT t ht
    have g1 := hg.ordered
    have g2 := hg.span
    simp only
    constructor
    · rcases abs_cases ((t.start : ℤ) - (t.stop : ℤ)) with h | h <;> omega
    · rcases abs_cases ((t.start : ℤ) - (t.stop : ℤ)) with h | h <;> omega)
  have hls : Ls.length = e.substitutions.length := by rw [hLs, List.length_map]
  have hlt : Lt.length = e.transpositions.length := by rw [hLt, List.length_map]
  have hns : Ls = [] ↔ e.substitutions = [] := by rw [hLs, List.map_eq_nil_iff]
  have hnt : Lt = [] ↔ e.transpositions = [] := by rw [hLt, List.map_eq_nil_iff]
  have hc : countEdits .default nT (identifyTypes a b) e =
      .ok (.dec (((e.additions.length : ℤ) : ℚ) + (spanSum Ls : ℚ) / ((mx - mn + 1 : ℤ) : ℚ) +
        (spanSum Lt : ℚ) / (nT : ℚ))) := by
    simp only [countEdits, Weights.default, weightA, hmx, hmn, weightSScale, weightTScale]
    rw [scalePairs_ok _ hne, scalePairs_ok _ hn]
    rfl
  have hcard : (editCount e : ℚ) = (e.additions.length : ℚ) + Ls.length + Lt.length := by
    rw [hls, hlt, editCount]; push_cast; ring
  have ha : (0 : ℚ) ≤ (e.additions.length : ℚ) := Nat.cast_nonneg _
  refine ⟨_, hc, ?_, ?_, ?_, ?_, mx, mn, hmx, hmn, ?_⟩
  · push_cast
    rcases hbs with ⟨_, h1⟩ | ⟨_, h1, _⟩ <;> rcases hbt with ⟨_, h2⟩ | ⟨_, h2, _⟩ <;>
      push_cast at h1 <;> linarith
  · rw [hcard]
    push_cast
    have k1 : (spanSum Ls : ℚ) / ((mx : ℚ) - mn + 1) ≤ Ls.length := by
      rcases hbs with ⟨_, h1⟩ | ⟨_, _, h1⟩ <;> push_cast at h1
      · rw [h1]; exact Nat.cast_nonneg _
      · exact h1.le
    have k2 : (spanSum Lt : ℚ) / (nT : ℚ) ≤ Lt.length := by
      rcases hbt with ⟨_, h1⟩ | ⟨_, _, h1⟩
      · rw [h1]; exact Nat.cast_nonneg _
      · exact h1.le
    linarith
  · have hz : editCount e = 0 ↔ (e.additions.length : ℚ) = 0 ∧ Ls = [] ∧ Lt = [] := by
      rw [hns, hnt, Nat.cast_eq_zero, editCount, ← List.length_eq_zero_iff,
        ← List.length_eq_zero_iff]
      omega
    rw [hz]
    push_cast
    constructor
    · intro h0
      rcases hbs with ⟨q1, h1⟩ | ⟨q1, h1, _⟩ <;> rcases hbt with ⟨q2, h2⟩ | ⟨q2, h2, _⟩ <;>
        push_cast at h1
      · exact ⟨by linarith, q1, q2⟩
      · exfalso; linarith
      · exfalso; linarith
      · exfalso; linarith
    · rintro ⟨h0, h1, h2⟩
      rw [h0, h1, h2]; simp [spanSum]
  · rw [← hns, ← hnt, hcard]
    push_cast
    constructor
    · intro h0
      rcases hbs with ⟨q1, h1⟩ | ⟨q1, _, h1⟩ <;> rcases hbt with ⟨q2, h2⟩ | ⟨q2, _, h2⟩ <;>
        push_cast at h1
      · exact ⟨q1, q2⟩
      · exfalso
        have : (Ls.length : ℚ) = 0 := by rw [q1]; simp
        linarith
      · exfalso
        have : (Lt.length : ℚ) = 0 := by rw [q2]; simp
        linarith
      · exfalso; linarith
    · rintro ⟨h1, h2⟩
      rw [h1, h2]; simp [spanSum]
  · rw [spanSum_eq, spanSum_eq, hLs, hLt, List.map_map, List.map_map]
    push_cast
    rfl

/-! ## Lists of matches and misses -/

theorem getElem?_zip (a b : BString) (hl : a.length = b.length) (p : ℕ) (hp : p < a.length) :
    (a.zip b)[p]? = some (typesAt a p, typesAt b p) := by
  have e1 : a[p]? = some a[p] := List.getElem?_eq_getElem hp
  have e2 : b[p]? = some b[p] := List.getElem?_eq_getElem (by omega)
  rw [List.getElem?_zip_eq_some, typesAt_of_get e1, typesAt_of_get e2]
  exact ⟨e1, e2⟩

theorem zip_eq_map (a b : BString) (hl : a.length = b.length) :
    a.zip b = (List.range a.length).map (fun p => (typesAt a p, typesAt b p)) := by
  apply List.ext_getElem?
  intro p
  by_cases hp : p < a.length
  · rw [getElem?_zip a b hl p hp]; simp [hp]
  · rw [List.getElem?_eq_none (by simp; omega), List.getElem?_eq_none (by simp; omega)]

theorem matchesFrom_length (rt : Runtime) (i : ℕ) (ps : List (Finset ℤ × Finset ℤ)) :
    (matchesFrom rt i ps).length = (ps.map (fun p => (p.1 ∩ p.2).card)).sum := by
  induction ps generalizing i with
  | nil => rfl
  | cons p ps ih => simp [matchesFrom, rt.order_length, ih]

theorem missesFrom_length (rt : Runtime) (i : ℕ) (ps : List (Finset ℤ × Finset ℤ)) :
    (missesFrom rt i ps).length = (ps.map (fun p => (symmDiff p.1 p.2).card)).sum := by
  induction ps generalizing i with
  | nil => rfl
  | cons p ps ih => simp [missesFrom, rt.order_length, ih]

theorem list_sum_range (n : ℕ) (f : ℕ → ℕ) :
    ((List.range n).map f).sum = ∑ p ∈ Finset.range n, f p := by
  induction n with
  | zero => rfl
  | succ n ih => simp [List.range_succ, Finset.sum_range_succ, ih]

theorem matches_length (rt : Runtime) {a b : BString} (hl : a.length = b.length) :
    (matchesFrom rt 0 (a.zip b)).length = matchCount a b := by
  rw [matchesFrom_length, zip_eq_map a b hl, List.map_map, matchCount, ← list_sum_range]
  rfl

theorem misses_length (rt : Runtime) {a b : BString} (hl : a.length = b.length) :
    (missesFrom rt 0 (a.zip b)).length =
      ∑ p ∈ Finset.range a.length, (missedAt a b p).card := by
  rw [missesFrom_length, zip_eq_map a b hl, List.map_map, ← list_sum_range]
  congr 1

theorem boundariesAll_eq (ps : List (Finset ℤ × Finset ℤ)) :
    boundariesAll ps = ((ps.map (fun p => p.1.card + p.2.card)).sum : ℕ) := by
  have key : ∀ (acc : ℤ), ps.foldl (fun acc p => acc + ((p.1.card : ℤ) + (p.2.card : ℤ))) acc =
      acc + ((ps.map (fun p => p.1.card + p.2.card)).sum : ℕ) := by
    induction ps with
    | nil => intro acc; simp
    | cons p ps ih =>
      intro acc
      rw [List.foldl_cons, ih]
      simp only [List.map_cons, List.sum_cons]
      push_cast; ring
  rw [boundariesAll, key, zero_add]

theorem boundariesAll_count {a b : BString} (hl : a.length = b.length) :
    boundariesAll (a.zip b) = (boundaryCount a + boundaryCount b : ℕ) := by
  rw [boundariesAll_eq, zip_eq_map a b hl, List.map_map, boundaryCount, boundaryCount, ← hl,
    ← Finset.sum_add_distrib, ← list_sum_range]
  rfl

theorem matchCount_comm {a b : BString} (hl : a.length = b.length) :
    matchCount a b = matchCount b a := by
  rw [matchCount, matchCount, hl]
  exact Finset.sum_congr rfl (fun p _ => by rw [Finset.inter_comm])

/-! ## Statistics -/

theorem statistics_ok {rt : Runtime} {w : Weights} {nT : ℤ} {a b : BString} {st : Statistics}
    (h : statisticsOfStrings rt w nT a b = .ok st) :
    a.length = b.length ∧ boundaryEditDistance rt a b nT = .ok (editsOf rt a b nT) ∧
    st.edits = editsOf rt a b nT ∧
    countEdits w nT (identifyTypes a b) (editsOf rt a b nT) = .ok st.countEdits ∧
    st.fullMisses = missesFrom rt 0 (a.zip b) ∧ st.boundariesAll = boundariesAll (a.zip b) ∧
    st.matches' = matchesFrom rt 0 (a.zip b) ∧
    st.pbs = (b.length : ℤ) * ((identifyTypes a b).card : ℤ) ∧
    st.boundaryTypes = identifyTypes a b := by
  unfold statisticsOfStrings at h
  split at h
  · cases h
  · rename_i hl
    rw [not_not] at hl
    cases hb : boundaryEditDistance rt a b nT with
    | error e => rw [hb] at h; cases h
    | ok e =>
      have he := bed_edits (le_of_eq hl) hb
      rw [hb] at h
      simp only at h
      cases hc : countEdits w nT (identifyTypes a b) e with
      | error e => rw [hc] at h; cases h
      | ok ce =>
        rw [hc] at h
        simp only [Except.ok.injEq] at h
        subst h
        subst he
        exact ⟨hl, rfl, rfl, hc, rfl, rfl, rfl, rfl, rfl⟩

theorem statistics_types_ne {rt : Runtime} {w : Weights} {nT : ℤ} {a b : BString} {st : Statistics}
    (h : statisticsOfStrings rt w nT a b = .ok st) : identifyTypes a b ≠ ∅ := by
  obtain ⟨_, _, _, hc, _⟩ := statistics_ok h
  intro h0
  unfold countEdits at hc
  rw [h0, pyMax_empty] at hc
  cases ha : w.a (editsOf rt a b nT).additions with
  | error e => rw [ha] at hc; cases hc
  | ok x => rw [ha] at hc; cases hc

theorem statistics_nT_ne {rt : Runtime} {nT : ℤ} {a b : BString} {st : Statistics}
    (h : statisticsOfStrings rt .default nT a b = .ok st) : nT ≠ 0 := by
  have ht := statistics_types_ne h
  obtain ⟨_, _, _, hc, _⟩ := statistics_ok h
  obtain ⟨mx, hmx, hmx1, hmx2⟩ := pyMax_ok ht
  obtain ⟨mn, hmn, hmn1, hmn2⟩ := pyMin_ok ht
  have hle := hmn2 mx hmx1
  rintro rfl
  unfold countEdits at hc
  simp only [Weights.default, weightA, hmx, hmn, weightSScale, weightTScale] at hc
  rw [scalePairs_ok _ (by omega : mx - mn + 1 ≠ 0)] at hc
  simp only [scalePairs, PyNum.truediv, PyNum.decDiv] at hc
  split at hc
  · cases hc
  · rename_i v hv
    simp only [Int.cast_zero, if_true] at hv
    split at hv <;> cases hv

/-- The default statistics, spelled out. -/
theorem statistics_default {rt : Runtime} {nT : ℤ} {a b : BString} {st : Statistics}
    (h : statisticsOfStrings rt .default nT a b = .ok st) :
    ∃ c : ℚ, st.countEdits = .dec c ∧ 0 ≤ c ∧ c ≤ editCount st.edits ∧
      (c = 0 ↔ editCount st.edits = 0) ∧
      (c = editCount st.edits ↔ st.edits.substitutions = [] ∧ st.edits.transpositions = []) := by
  obtain ⟨_, _, he, hc, _⟩ := statistics_ok h
  obtain ⟨c, h1, h2, h3, h4, h5, _⟩ :=
    default_count (rt := rt) (a := a) (b := b) (statistics_nT_ne h) (statistics_types_ne h)
  rw [h1, Except.ok.injEq] at hc
  rw [he]
  exact ⟨c, hc.symm, h2, h3, h4, h5⟩

/-! ## Bounds on the number of edits -/

theorem max_onlyIn_le (a b : BString) (p : ℕ) :
    max (onlyIn a b p).card (onlyIn b a p).card + (typesAt a p ∩ typesAt b p).card ≤
      (identifyTypes a b).card := by
  have h1 : (onlyIn a b p).card + (typesAt a p ∩ typesAt b p).card = (typesAt a p).card := by
    rw [onlyIn, Finset.card_sdiff_add_card_inter]
  have h2 : (onlyIn b a p).card + (typesAt a p ∩ typesAt b p).card = (typesAt b p).card := by
    rw [onlyIn, Finset.inter_comm, Finset.card_sdiff_add_card_inter]
  have h3 := Finset.card_le_card (typesAt_subset_left a b p)
  have h4 := Finset.card_le_card (typesAt_subset_right a b p)
  omega

theorem edits_le {rt : Runtime} {a b : BString} (hl : a.length = b.length)
    (hs : SharedTypes rt a b) (nT : ℤ) :
    editCount (editsOf rt a b nT) + matchCount a b ≤ a.length * (identifyTypes a b).card := by
  have h1 : editCount (editsOf rt a b nT) ≤ editsWith a b [] := by
    rw [editCount, edits_count]
    rcases le_total nT 1 with h | h
    · have : allT rt a b nT = [] := by
        apply List.eq_nil_iff_forall_not_mem.2
        intro t ht
        have hg := allT_genuine rt a b nT t ht
        have h1 := hg.span
        have h2 := hg.ordered
        omega
      rw [this]
    · exact allT_cost_mono (le_of_eq hl) hs h
  have h2 : editsWith a b [] + matchCount a b ≤
      ∑ p ∈ Finset.range a.length, (identifyTypes a b).card := by
    rw [editsWith, matchCount, List.length_nil, zero_add, ← Finset.sum_add_distrib]
    refine Finset.sum_le_sum (fun p _ => ?_)
    have := max_onlyIn_le a b p
    simpa [leftover, transposedAt_nil] using this
  rw [Finset.sum_const, Finset.card_range, nsmul_eq_mul, Nat.cast_id] at h2
  omega

/-- There is something to compare as soon as some boundary type occurs. -/
theorem edits_matches_pos {rt : Runtime} {a b : BString} (hl : a.length = b.length) (nT : ℤ)
    (ht : identifyTypes a b ≠ ∅) : 0 < editCount (editsOf rt a b nT) + matchCount a b := by
  obtain ⟨t, h⟩ := Finset.nonempty_iff_ne_empty.2 ht
  obtain ⟨p, hp⟩ := mem_identifyTypes.1 h
  by_contra hz
  have hz1 : editCount (editsOf rt a b nT) = 0 := by omega
  have hz2 : matchCount a b = 0 := by omega
  have hpl : p < a.length := by
    by_contra hc
    rcases hp with hp | hp
    · rw [typesAt, List.getElem?_eq_none (by omega)] at hp; simp at hp
    · rw [typesAt, List.getElem?_eq_none (by omega)] at hp; simp at hp
  have hpr := Finset.mem_range.2 hpl
  have m1 := (Finset.sum_eq_zero_iff.1 hz2) p hpr
  rw [editCount, edits_count, editsWith] at hz1
  have hT : allT rt a b nT = [] := List.length_eq_zero_iff.1 (by omega)
  rw [hT] at hz1
  have m2 := (Finset.sum_eq_zero_iff.1 (by omega : ∑ p ∈ Finset.range a.length,
    max (leftover a b [] p).card (leftover b a [] p).card = 0)) p hpr
  have ea : onlyIn a b p = ∅ := by
    have : (leftover a b [] p).card = 0 := by omega
    simpa [leftover, transposedAt_nil] using this
  have eb : onlyIn b a p = ∅ := by
    have : (leftover b a [] p).card = 0 := by omega
    simpa [leftover, transposedAt_nil] using this
  rw [Finset.card_eq_zero] at m1
  rw [onlyIn, Finset.sdiff_eq_empty_iff_subset] at ea eb
  rcases hp with hp | hp
  · have : t ∈ typesAt a p ∩ typesAt b p := Finset.mem_inter.2 ⟨hp, ea hp⟩
    rw [m1] at this; simp at this
  · have : t ∈ typesAt a p ∩ typesAt b p := Finset.mem_inter.2 ⟨eb hp, hp⟩
    rw [m1] at this; simp at this

end SegEval
