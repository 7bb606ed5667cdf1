import Verif.Lemmas.Transp
import Mathlib.Algebra.BigOperators.Ring.Finset

namespace SegEval

open Spec

/-! ## The closed form of boundary edit distance -/

theorem forLoop_collect {α β γ : Type _} (l : List α) (f : List β × List γ → α → Py (List β × List γ))
    (A : α → List β) (S : α → List γ)
    (hf : ∀ acc, ∀ x ∈ l, f acc x = .ok (acc.1 ++ A x, acc.2 ++ S x)) (acc : List β × List γ) :
    forLoop l acc f = .ok (acc.1 ++ l.flatMap A, acc.2 ++ l.flatMap S) := by
  induction l generalizing acc with
  | nil => simp [forLoop]
  | cons x xs ih =>
    simp only [forLoop, hf acc x (by simp)]
    rw [ih (fun acc y hy => hf acc y (by simp [hy]))]
    simp

theorem forLoop_error {α σ : Type _} (l : List α) (f : σ → α → Py σ) (e : PyErr)
    (hf : ∀ acc, ∀ x ∈ l, (∃ acc', f acc x = .ok acc') ∨ f acc x = .error e)
    (x : α) (hx : x ∈ l) (hbad : ∀ acc, f acc x = .error e) (acc : σ) :
    forLoop l acc f = .error e := by
  induction l generalizing acc with
  | nil => simp at hx
  | cons y ys ih =>
    rcases hf acc y (by simp) with ⟨acc', h'⟩ | h'
    · simp only [forLoop, h']
      rcases List.mem_cons.1 hx with rfl | hx
      · rw [hbad] at h'; cases h'
      · exact ih (fun acc z hz => hf acc z (by simp [hz])) hx acc'
    · simp only [forLoop, h']

theorem order_empty (rt : Runtime) (site : List ℕ) : rt.order site ∅ = [] :=
  List.eq_nil_of_length_eq_zero (by rw [rt.order_length]; rfl)

theorem bestPairs_empty : bestPairs ∅ ∅ = ∅ := by
  have := (bestPairs_cheapest ∅ ∅).1.full
  simpa using this

theorem addsOf_empty (rt : Runtime) (i : ℕ) : addsOf rt i ∅ ∅ = [] := by
  simp [addsOf, order_empty]

theorem subsOf_empty (rt : Runtime) (i : ℕ) : subsOf rt i ∅ ∅ = [] := by
  have : rt.orderP [3, i] (bestPairs ∅ ∅) = [] :=
    List.eq_nil_of_length_eq_zero (by rw [rt.orderP_length, bestPairs_empty]; rfl)
  simp [subsOf, this]

/-- Numbers of leftover boundaries differ by at most 256 at a position. -/
def Balanced (a b : BString) (ts : List Transposition) (p : ℕ) : Prop :=
  ((leftover a b ts p).card - (leftover b a ts p).card) +
    ((leftover b a ts p).card - (leftover a b ts p).card) ≤ 256

instance (a b : BString) (ts : List Transposition) (p : ℕ) : Decidable (Balanced a b ts p) := by
  unfold Balanced; infer_instance

/-- The edits the search reports. -/
def editsOf (rt : Runtime) (a b : BString) (nT : ℤ) : Edits where
  additions := (List.range a.length).flatMap (fun p =>
    addsOf rt p (leftover a b (allT rt a b nT) p) (leftover b a (allT rt a b nT) p))
  substitutions := (List.range a.length).flatMap (fun p =>
    subsOf rt p (leftover a b (allT rt a b nT) p) (leftover b a (allT rt a b nT) p))
  transpositions := allT rt a b nT

theorem leftover_empty_of_missed {a b : BString} {p : ℕ} (h : missedAt a b p = ∅)
    (ts : List Transposition) : leftover a b ts p = ∅ ∧ leftover b a ts p = ∅ := by
  have h1 := missed_sdiff a b ts p
  rw [h, Finset.empty_sdiff] at h1
  have := h1.symm
  rwa [Finset.union_eq_empty] at this

theorem collect_step (rt : Runtime) {a b : BString} (h : a.length ≤ b.length)
    (ts : List Transposition) (p : ℕ) (hp : p < a.length) (acc : List Addition × List Substitution) :
    collectStep rt (stateOf a b ts).options acc p =
      if Balanced a b ts p then
        .ok (acc.1 ++ addsOf rt p (leftover a b ts p) (leftover b a ts p),
          acc.2 ++ subsOf rt p (leftover a b ts p) (leftover b a ts p))
      else .error .assertionError := by
  by_cases hm : missedAt a b p = ∅
  · have he := leftover_empty_of_missed hm ts
    have : (stateOf a b ts).options p = none := by
      simp [stateOf, optionalSetEdits_eq a b h, hm]
    rw [collectStep, this, he.1, he.2]
    have hb : Balanced a b ts p := by simp [Balanced, he.1, he.2]
    simp [addsOf_empty, subsOf_empty, hb]
  · rw [collectStep, options_stateOf a b h ts p hp hm]
    simp only [missed_sdiff, additionsSubstitutionsSets_eq rt p _ _ (leftover_disjoint a b ts p)]
    by_cases hb : Balanced a b ts p
    · rw [if_pos hb]; unfold Balanced at hb; simp only [if_pos hb]
    · rw [if_neg hb]; unfold Balanced at hb; simp only [if_neg hb]

theorem bed_ok (rt : Runtime) {a b : BString} (h : a.length ≤ b.length) (nT : ℤ)
    (hb : ∀ p < a.length, Balanced a b (allT rt a b nT) p) :
    boundaryEditDistance rt a b nT = .ok (editsOf rt a b nT) := by
  rw [boundaryEditDistance, transpositionsLoop_eq rt a b h nT]
  simp only
  rw [min_eq_left h, collectEdits]
  rw [forLoop_collect (List.range a.length) _
    (fun p => addsOf rt p (leftover a b (allT rt a b nT) p) (leftover b a (allT rt a b nT) p))
    (fun p => subsOf rt p (leftover a b (allT rt a b nT) p) (leftover b a (allT rt a b nT) p))]
  · simp [editsOf, stateOf]
  · intro acc p hp
    rw [List.mem_range] at hp
    rw [collect_step rt h _ p hp acc, if_pos (hb p hp)]

theorem bed_error (rt : Runtime) {a b : BString} (h : a.length ≤ b.length) (nT : ℤ)
    (hb : ¬ ∀ p < a.length, Balanced a b (allT rt a b nT) p) :
    boundaryEditDistance rt a b nT = .error .assertionError := by
  push Not at hb
  obtain ⟨p, hp, hbal⟩ := hb
  rw [boundaryEditDistance, transpositionsLoop_eq rt a b h nT]
  simp only
  rw [min_eq_left h, collectEdits]
  rw [forLoop_error (List.range a.length) _ .assertionError ?_ p (List.mem_range.2 hp) ?_]
  · intro acc q hq
    rw [List.mem_range] at hq
    rw [collect_step rt h _ q hq acc]
    split
    · exact Or.inl ⟨_, rfl⟩
    · exact Or.inr rfl
  · intro acc
    rw [collect_step rt h _ p hp acc, if_neg hbal]

theorem bed_iff (rt : Runtime) {a b : BString} (h : a.length ≤ b.length) (nT : ℤ) (e : Edits) :
    boundaryEditDistance rt a b nT = .ok e ↔
      (∀ p < a.length, Balanced a b (allT rt a b nT) p) ∧ e = editsOf rt a b nT := by
  by_cases hb : ∀ p < a.length, Balanced a b (allT rt a b nT) p
  · rw [bed_ok rt h nT hb]
    constructor
    · intro he; exact ⟨hb, (Except.ok.inj he).symm⟩
    · rintro ⟨_, rfl⟩; rfl
  · rw [bed_error rt h nT hb]
    constructor
    · intro he; cases he
    · rintro ⟨h1, _⟩; exact absurd h1 hb

theorem bed_edits {rt : Runtime} {a b : BString} (h : a.length ≤ b.length) {nT : ℤ} {e : Edits}
    (he : boundaryEditDistance rt a b nT = .ok e) : e = editsOf rt a b nT :=
  ((bed_iff rt h nT e).1 he).2

/-- A boundary between two others that moved to both sides: when the second comparison sees a
separate object, it is moved twice. -/
theorem twice_allT (rt : Runtime) (t : ℤ) (h : smallInt t = false)
    (hr : rt.sameObj [1, 2, 0, 1] t = false) :
    allT rt [{t}, ∅, {t}] [∅, {t}, ∅] 2 = [⟨0, 1, t⟩, ⟨1, 2, t⟩] := by
  have hs : spans 2 = [1] := by decide
  have h1 : candidates [{t}, ∅, {t}] [∅, {t}, ∅] 0 1 = {t} := by
    ext x; simp [mem_candidates, Moves, onlyIn, typesAt]
  have h2 : candidates [{t}, ∅, {t}] [∅, {t}, ∅] 1 2 = {t} := by
    ext x; simp [mem_candidates, Moves, onlyIn, typesAt]
  have h3 : ∀ s, rt.order s {t} = [t] := by
    intro s
    have := rt.order_perm s {t}
    rw [show sortedZ {t} = [t] from rfl] at this
    exact List.perm_singleton.1 this
  have e1 : symmDiff {t} (∅ : Finset ℤ) = {t} := symmDiff_bot _
  have e2 : symmDiff (∅ : Finset ℤ) {t} = {t} := bot_symmDiff _
  have a1 : accepts rt [{t}, ∅, {t}] [∅, {t}, ∅] 0 1 [] t = true := by
    rw [accepts_iff]
    refine ⟨by simp [overlapsExisting, stateOf], ?_⟩
    simp [hasSubstitutions, stateOf, optionalSetEdits, additionsSubstitutions, e1, e2]
  have a2 : accepts rt [{t}, ∅, {t}] [∅, {t}, ∅] 1 2 [⟨0, 1, t⟩] t = true := by
    rw [accepts_iff]
    refine ⟨by simp [overlapsExisting, stateOf, Touches, sameType, h, hr], ?_⟩
    simp [hasSubstitutions, stateOf, optionalSetEdits, additionsSubstitutions, e1, e2]
  simp [allT, hs, spanT, List.range_succ, posT, h1, h2, h3, stepT, a1, a2]

theorem twice_bed (rt : Runtime) (t : ℤ) (h : smallInt t = false)
    (hr : rt.sameObj [1, 2, 0, 1] t = false) :
    boundaryEditDistance rt [{t}, ∅, {t}] [∅, {t}, ∅] 2 =
      .ok ⟨[], [], [⟨0, 1, t⟩, ⟨1, 2, t⟩]⟩ := by
  have hl : ∀ p < 3, leftover [{t}, ∅, {t}] [∅, {t}, ∅] [⟨0, 1, t⟩, ⟨1, 2, t⟩] p = ∅ ∧
      leftover [∅, {t}, ∅] [{t}, ∅, {t}] [⟨0, 1, t⟩, ⟨1, 2, t⟩] p = ∅ := by
    intro p hp
    have : p = 0 ∨ p = 1 ∨ p = 2 := by omega
    rcases this with rfl | rfl | rfl <;> constructor <;> ext x <;>
      simp [mem_leftover, onlyIn, typesAt, mem_transposedAt, Touches] <;>
      exact fun hx => hx.symm
  rw [bed_ok rt (a := [{t}, ∅, {t}]) (b := [∅, {t}, ∅]) (by simp)]
  · have h0 := hl 0 (by norm_num)
    have h1 := hl 1 (by norm_num)
    have h2 := hl 2 (by norm_num)
    rw [editsOf, twice_allT rt t h hr]
    simp [List.range_succ, h0.1, h0.2, h1.1, h1.2, h2.1, h2.2, addsOf_empty, subsOf_empty]
  · intro p hp
    rw [twice_allT rt t h hr, Balanced, (hl p hp).1, (hl p hp).2]
    simp

/-! ## Numbers of edits -/

theorem addsOf_length (rt : Runtime) (i : ℕ) (A B : Finset ℤ) :
    (addsOf rt i A B).length = (A.card - B.card) + (B.card - A.card) := by
  have hp := (bestPairs_cheapest A B).1
  simp only [addsOf, List.length_append, List.length_map, rt.order_length, hp.card_left,
    hp.card_right]

theorem subsOf_length (rt : Runtime) (i : ℕ) (A B : Finset ℤ) :
    (subsOf rt i A B).length = min A.card B.card := by
  have hp := (bestPairs_cheapest A B).1
  simp only [subsOf, List.length_map, rt.orderP_length, hp.full]

theorem length_flatMap_range {β : Type _} (n : ℕ) (f : ℕ → List β) :
    ((List.range n).flatMap f).length = ∑ p ∈ Finset.range n, (f p).length := by
  induction n with
  | zero => rfl
  | succ n ih => simp [List.range_succ, Finset.sum_range_succ, ih]

theorem countP_flatMap_range {β : Type _} (n : ℕ) (f : ℕ → List β) (q : β → Bool) :
    ((List.range n).flatMap f).countP q = ∑ p ∈ Finset.range n, (f p).countP q := by
  induction n with
  | zero => rfl
  | succ n ih => simp [List.range_succ, Finset.sum_range_succ, ih]

theorem coe_flatMap_range {β : Type _} (n : ℕ) (f : ℕ → List β) :
    (((List.range n).flatMap f : List β) : Multiset β) =
      ∑ p ∈ Finset.range n, ((f p : List β) : Multiset β) := by
  induction n with
  | zero => rfl
  | succ n ih => rw [Finset.sum_range_succ, ← ih]; simp [List.range_succ]

theorem edits_count (rt : Runtime) (a b : BString) (nT : ℤ) :
    (editsOf rt a b nT).additions.length + (editsOf rt a b nT).substitutions.length +
      (editsOf rt a b nT).transpositions.length = editsWith a b (allT rt a b nT) := by
  simp only [editsOf, length_flatMap_range, addsOf_length, subsOf_length, editsWith]
  rw [← Finset.sum_add_distrib, add_comm]
  congr 1
  apply Finset.sum_congr rfl
  intro p _; omega

theorem sum_missed (rt : Runtime) (a b : BString) (hl : a.length = b.length) (nT : ℤ)
    (hs : SharedTypes rt a b) :
    ∑ p ∈ Finset.range a.length, (missedAt a b p).card =
      (editsOf rt a b nT).additions.length + 2 * (editsOf rt a b nT).substitutions.length +
        2 * (editsOf rt a b nT).transpositions.length := by
  have hg := allT_genuine rt a b nT
  have hd := allT_disjoint (le_of_eq hl) hs nT
  have h1 := sum_transposed a b nT _ hg hd
  have h2 := sum_transposed b a nT _ (fun t ht => genuine_comm hl (hg t ht)) hd
  rw [← hl] at h2
  simp only [editsOf, length_flatMap_range, addsOf_length, subsOf_length]
  have h3 : ∀ p, (missedAt a b p).card =
      ((leftover a b (allT rt a b nT) p).card + (onlyIn a b p ∩ transposedAt (allT rt a b nT) p).card) +
      ((leftover b a (allT rt a b nT) p).card + (onlyIn b a p ∩ transposedAt (allT rt a b nT) p).card) := by
    intro p
    rw [missedAt, Finset.card_union_of_disjoint (onlyIn_disjoint a b p), ← card_onlyIn_split,
      ← card_onlyIn_split]
  rw [Finset.sum_congr rfl (fun p _ => h3 p), Finset.sum_add_distrib, Finset.sum_add_distrib,
    Finset.sum_add_distrib, h1, h2]
  have h4 : ∑ p ∈ Finset.range a.length, (leftover a b (allT rt a b nT) p).card +
      ∑ p ∈ Finset.range a.length, (leftover b a (allT rt a b nT) p).card =
      ∑ p ∈ Finset.range a.length,
        ((leftover a b (allT rt a b nT) p).card - (leftover b a (allT rt a b nT) p).card +
        ((leftover b a (allT rt a b nT) p).card - (leftover a b (allT rt a b nT) p).card)) +
      2 * ∑ p ∈ Finset.range a.length,
        min (leftover a b (allT rt a b nT) p).card (leftover b a (allT rt a b nT) p).card := by
    rw [Finset.mul_sum, ← Finset.sum_add_distrib, ← Finset.sum_add_distrib]
    apply Finset.sum_congr rfl
    intro p _; omega
  omega

/-! ## Additions and substitutions of one position, type by type -/

theorem count_order (rt : Runtime) (site : List ℕ) (s : Finset ℤ) (d : ℤ) :
    (rt.order site s).countP (fun t => decide (t = d)) = if d ∈ s then 1 else 0 := by
  have : (rt.order site s).countP (fun t => decide (t = d)) = (rt.order site s).count d := by
    rw [List.count]
    rfl
  rw [this]
  split
  · rename_i h
    exact List.count_eq_one_of_mem (rt.order_nodup _ _) ((rt.mem_order _ _ _).2 h)
  · rename_i h
    exact List.count_eq_zero_of_not_mem (fun hc => h ((rt.mem_order _ _ _).1 hc))

theorem countP_orderP (rt : Runtime) (site : List ℕ) (S : Finset (ℤ × ℤ)) (f : ℤ × ℤ → ℤ)
    (hf : ∀ p ∈ S, ∀ q ∈ S, f p = f q → p = q) (d : ℤ) :
    (rt.orderP site S).countP (fun p => decide (f p = d)) = if d ∈ S.image f then 1 else 0 := by
  have hn : ((rt.orderP site S).map f).Nodup :=
    List.Nodup.map_on (fun x hx y hy h => hf x ((rt.orderP_mem _ _ _).1 hx) y
      ((rt.orderP_mem _ _ _).1 hy) h) (rt.orderP_nodup site S)
  have : (rt.orderP site S).countP (fun p => decide (f p = d)) =
      ((rt.orderP site S).map f).count d := by
    rw [List.count, List.countP_map]
    rfl
  rw [this]
  split
  · rename_i h
    obtain ⟨p, hp, hpd⟩ := Finset.mem_image.1 h
    exact List.count_eq_one_of_mem hn (List.mem_map.2 ⟨p, (rt.orderP_mem _ _ _).2 hp, hpd⟩)
  · rename_i h
    refine List.count_eq_zero_of_not_mem (fun hc => h ?_)
    obtain ⟨p, hp, hpd⟩ := List.mem_map.1 hc
    exact Finset.mem_image.2 ⟨p, (rt.orderP_mem _ _ _).1 hp, hpd⟩

theorem count_side_a (rt : Runtime) (i : ℕ) (A B : Finset ℤ) (d : ℤ) :
    (addsOf rt i A B).countP (fun x => decide (x = ⟨d, .a⟩)) +
      (subsOf rt i A B).countP (fun s => decide (s.typeA = d)) = if d ∈ A then 1 else 0 := by
  have hp := (bestPairs_cheapest A B).1
  have hsA : (bestPairs A B).image Prod.fst ⊆ A := by
    intro x hx; obtain ⟨p, hp', rfl⟩ := Finset.mem_image.1 hx; exact hp.left p hp'
  have h1 : (addsOf rt i A B).countP (fun x => decide (x = ⟨d, .a⟩)) =
      if d ∈ A \ (bestPairs A B).image Prod.fst then 1 else 0 := by
    rw [addsOf, List.countP_append, List.countP_map, List.countP_map, ← count_order rt [1, i]]
    have : ∀ l : List ℤ, l.countP ((fun x => decide (x = (⟨d, .a⟩ : Addition))) ∘
        (fun t => Addition.mk t .b)) = 0 := by
      intro l; rw [List.countP_eq_zero]; intro x _; simp
    rw [this, add_zero]
    congr 1
    funext t; simp
  have h2 : (subsOf rt i A B).countP (fun s => decide (s.typeA = d)) =
      if d ∈ (bestPairs A B).image Prod.fst then 1 else 0 := by
    rw [subsOf, List.countP_map, ← countP_orderP rt [3, i] _ Prod.fst hp.injLeft]
    rfl
  rw [h1, h2]
  by_cases hd : d ∈ (bestPairs A B).image Prod.fst
  · simp [hd, hsA hd]
  · by_cases hA : d ∈ A <;> simp [hd, hA]

theorem count_side_b (rt : Runtime) (i : ℕ) (A B : Finset ℤ) (d : ℤ) :
    (addsOf rt i A B).countP (fun x => decide (x = ⟨d, .b⟩)) +
      (subsOf rt i A B).countP (fun s => decide (s.typeB = d)) = if d ∈ B then 1 else 0 := by
  have hp := (bestPairs_cheapest A B).1
  have hsB : (bestPairs A B).image Prod.snd ⊆ B := by
    intro x hx; obtain ⟨p, hp', rfl⟩ := Finset.mem_image.1 hx; exact hp.right p hp'
  have h1 : (addsOf rt i A B).countP (fun x => decide (x = ⟨d, .b⟩)) =
      if d ∈ B \ (bestPairs A B).image Prod.snd then 1 else 0 := by
    rw [addsOf, List.countP_append, List.countP_map, List.countP_map, ← count_order rt [2, i]]
    have : ∀ l : List ℤ, l.countP ((fun x => decide (x = (⟨d, .b⟩ : Addition))) ∘
        (fun t => Addition.mk t .a)) = 0 := by
      intro l; rw [List.countP_eq_zero]; intro x _; simp
    rw [this, zero_add]
    congr 1
    funext t; simp
  have h2 : (subsOf rt i A B).countP (fun s => decide (s.typeB = d)) =
      if d ∈ (bestPairs A B).image Prod.snd then 1 else 0 := by
    rw [subsOf, List.countP_map, ← countP_orderP rt [3, i] _ Prod.snd hp.injRight]
    rfl
  rw [h1, h2]
  by_cases hd : d ∈ (bestPairs A B).image Prod.snd
  · simp [hd, hsB hd]
  · by_cases hA : d ∈ B <;> simp [hd, hA]

theorem count_split (a b : BString) (ts : List Transposition) (n : ℕ) (d : ℤ) :
    ((Finset.range n).filter (fun p => d ∈ onlyIn a b p)).card =
      (∑ p ∈ Finset.range n, if d ∈ leftover a b ts p then 1 else 0) +
      ((Finset.range n).filter (fun p => d ∈ onlyIn a b p ∧ d ∈ transposedAt ts p)).card := by
  rw [Finset.card_filter, Finset.card_filter, ← Finset.sum_add_distrib]
  apply Finset.sum_congr rfl
  intro p _
  simp only [mem_leftover]
  by_cases h1 : d ∈ onlyIn a b p <;> by_cases h2 : d ∈ transposedAt ts p <;> simp [h1, h2]

/-! ## Monotonicity in the window -/

theorem leftover_append_singleton (a b : BString) (ts : List Transposition) (t : Transposition)
    (p : ℕ) : leftover a b (ts ++ [t]) p =
      if Touches t p then (leftover a b ts p).erase t.type else leftover a b ts p := by
  rw [leftover, transposedAt_append, transposedAt_singleton, leftover]
  split
  · rw [erase_sdiff_eq]
  · simp

theorem cost_step {rt : Runtime} {a b : BString} (h : a.length ≤ b.length) (hs : SharedTypes rt a b)
    (ts : List Transposition) (i j : ℕ) (d : ℤ) (hij : i < j) (hj : j < a.length)
    (hd : d ∈ candidates a b i j) (hacc : accepts rt a b i j ts d = true) :
    editsWith a b (ts ++ [⟨i, j, d⟩]) ≤ editsWith a b ts := by
  obtain ⟨⟨hui, huj⟩, hnb⟩ := (accepts_shared h hij hj hd hs).1 hacc
  have hmono : ∀ p ∈ Finset.range a.length,
      max (leftover a b (ts ++ [⟨i, j, d⟩]) p).card (leftover b a (ts ++ [⟨i, j, d⟩]) p).card ≤
      max (leftover a b ts p).card (leftover b a ts p).card := fun p _ =>
    max_le_max (Finset.card_le_card (leftover_mono a b ts _ p))
      (Finset.card_le_card (leftover_mono b a ts _ p))
  -- an end where the type is left in one string and nothing is left in the other gets cheaper
  have hend : ∀ (a b : BString) (p : ℕ), Touches ⟨i, j, d⟩ p → d ∈ leftover a b ts p →
      leftover b a ts p = ∅ →
      max (leftover a b (ts ++ [⟨i, j, d⟩]) p).card (leftover b a (ts ++ [⟨i, j, d⟩]) p).card <
      max (leftover a b ts p).card (leftover b a ts p).card := by
    intro a b p ht hin hemp
    rw [leftover_append_singleton, leftover_append_singleton, if_pos ht, if_pos ht, hemp,
      Finset.card_erase_of_mem hin]
    have : 0 < (leftover a b ts p).card := Finset.card_pos.2 ⟨d, hin⟩
    rw [Finset.erase_empty, Finset.card_empty]; omega
  have hex : ∃ p ∈ Finset.range a.length,
      max (leftover a b (ts ++ [⟨i, j, d⟩]) p).card (leftover b a (ts ++ [⟨i, j, d⟩]) p).card <
      max (leftover a b ts p).card (leftover b a ts p).card := by
    have hti : Touches ⟨i, j, d⟩ i := Or.inl rfl
    have htj : Touches ⟨i, j, d⟩ j := Or.inr rfl
    have hi : i ∈ Finset.range a.length := Finset.mem_range.2 (by omega)
    have hj' : j ∈ Finset.range a.length := Finset.mem_range.2 hj
    rcases mem_candidates.1 hd with ⟨m1, m2⟩ | ⟨m1, m2⟩
    · have l1 : d ∈ leftover a b ts i := mem_leftover.2 ⟨m1, hui⟩
      have l2 : d ∈ leftover b a ts j := mem_leftover.2 ⟨m2, huj⟩
      by_cases h1 : leftover b a ts i = ∅
      · exact ⟨i, hi, hend a b i hti l1 h1⟩
      · by_cases h2 : leftover a b ts j = ∅
        · refine ⟨j, hj', ?_⟩
          have := hend b a j htj l2 h2
          rwa [max_comm, max_comm (leftover b a ts j).card] at this
        · exact absurd ⟨⟨ne_empty_of_mem' l1, h1⟩, h2, ne_empty_of_mem' l2⟩ hnb
    · have l1 : d ∈ leftover b a ts i := mem_leftover.2 ⟨m1, hui⟩
      have l2 : d ∈ leftover a b ts j := mem_leftover.2 ⟨m2, huj⟩
      by_cases h1 : leftover a b ts i = ∅
      · refine ⟨i, hi, ?_⟩
        have := hend b a i hti l1 h1
        rwa [max_comm, max_comm (leftover b a ts i).card] at this
      · by_cases h2 : leftover b a ts j = ∅
        · exact ⟨j, hj', hend a b j htj l2 h2⟩
        · exact absurd ⟨⟨h1, ne_empty_of_mem' l1⟩, ne_empty_of_mem' l2, h2⟩ hnb
  have := Finset.sum_lt_sum hmono hex
  simp only [editsWith, List.length_append, List.length_singleton]
  omega

theorem allT_prefix (rt : Runtime) (a b : BString) {m n : ℤ} (h : m ≤ n) :
    allT rt a b m <+: allT rt a b n := by
  obtain ⟨rest, hr⟩ := spans_prefix h
  have : allT rt a b n = rest.foldl (spanT rt a b) (allT rt a b m) := by
    rw [allT, hr, List.foldl_append, allT]
  rw [this]
  refine spansT_inv (nT := n) (P := fun ts => allT rt a b m <+: ts) rest
    (fun s hs => by rw [hr]; exact List.mem_append_right _ hs) _ (List.prefix_refl _) ?_
  intro ts i j d hts _ _ _ _ _
  exact hts.trans (List.prefix_append _ _)

theorem allT_cost_mono {rt : Runtime} {a b : BString} (hl : a.length ≤ b.length)
    (hs : SharedTypes rt a b) {m n : ℤ} (h : m ≤ n) :
    editsWith a b (allT rt a b n) ≤ editsWith a b (allT rt a b m) := by
  obtain ⟨rest, hr⟩ := spans_prefix h
  have : allT rt a b n = rest.foldl (spanT rt a b) (allT rt a b m) := by
    rw [allT, hr, List.foldl_append, allT]
  rw [this]
  refine spansT_inv (nT := n) (P := fun ts => editsWith a b ts ≤ editsWith a b (allT rt a b m)) rest
    (fun s hs => by rw [hr]; exact List.mem_append_right _ hs) _ (le_refl _) ?_
  intro ts i j d hts hij hj _ hd hacc
  exact (cost_step hl hs ts i j d hij hj hd hacc).trans hts

/-! ## Independence of order, and symmetry -/

theorem blocked_perm {a b : BString} {ts us : List Transposition} (h : ts.Perm us) (i j : ℕ) :
    Blocked a b ts i j ↔ Blocked a b us i j := by
  simp only [Blocked, leftover, transposedAt_perm h]

theorem blocked_comm {a b : BString} {ts : List Transposition} {i j : ℕ} :
    Blocked a b ts i j ↔ Blocked b a ts i j := by
  simp only [Blocked, and_comm (a := leftover a b ts i ≠ ∅), and_comm (a := leftover a b ts j ≠ ∅)]

theorem newT_perm {a b : BString} {i j : ℕ} {ts us : List Transposition} {ds es : List ℤ}
    (h : ts.Perm us) (hd : ds.Perm es) : (newT a b i j ts ds).Perm (newT a b i j us es) := by
  simp only [newT, blocked_perm h, transposedAt_perm h]
  split
  · exact List.Perm.refl _
  · exact (hd.filter _).map _

theorem newT_comm (a b : BString) (i j : ℕ) (ts : List Transposition) (ds : List ℤ) :
    newT a b i j ts ds = newT b a i j ts ds := by
  simp only [newT, blocked_comm (a := a)]

theorem candidates_comm (a b : BString) (i j : ℕ) : candidates a b i j = candidates b a i j := by
  ext d; rw [mem_candidates, mem_candidates, moves_comm]

theorem allT_perm {rt rt' : Runtime} {a b : BString} (hl : a.length ≤ b.length)
    (hs : SharedTypes rt a b) (hs' : SharedTypes rt' a b) (nT : ℤ) :
    (allT rt a b nT).Perm (allT rt' a b nT) := by
  refine foldl_rel List.Perm _ _ _ (fun ts us span hspan h => ?_) [] [] (List.Perm.refl _)
  refine foldl_rel List.Perm _ _ _ (fun ts us i hi h => ?_) ts us h
  rw [mem_spans] at hspan
  rw [List.mem_range] at hi
  rw [posT_eq hl hspan.1 (by omega) hs, posT_eq hl hspan.1 (by omega) hs']
  exact h.append (newT_perm h ((rt.order_perm _ _).trans (rt'.order_perm _ _).symm))

theorem sharedTypes_comm {rt : Runtime} {a b : BString} (h : SharedTypes rt a b) :
    SharedTypes rt b a := fun p t ht => h p t (by rwa [missedAt_comm])

theorem allT_comm {rt : Runtime} {a b : BString} (hl : a.length = b.length)
    (hs : SharedTypes rt a b) (nT : ℤ) : allT rt a b nT = allT rt b a nT := by
  refine foldl_rel (fun x y => x = y) _ _ _ (fun ts us span hspan h => ?_) [] [] rfl
  subst h
  rw [spanT, spanT, hl]
  refine foldl_rel (fun x y => x = y) _ _ _ (fun ts us i hi h => ?_) ts ts rfl
  subst h
  rw [mem_spans] at hspan
  rw [List.mem_range] at hi
  rw [posT_eq (le_of_eq hl) hspan.1 (by omega) hs,
    posT_eq (le_of_eq hl.symm) hspan.1 (by omega) (sharedTypes_comm hs), candidates_comm, newT_comm]

theorem pairing_swap {A B : Finset ℤ} {S : Finset (ℤ × ℤ)} (h : Pairing A B S) :
    Pairing B A (S.image Prod.swap) ∧ distance (S.image Prod.swap) = distance S := by
  have hcard : (S.image Prod.swap).card = S.card :=
    Finset.card_image_of_injective S Prod.swap_injective
  constructor
  · refine ⟨?_, ?_, ?_, ?_, ?_⟩
    · intro p hp; obtain ⟨q, hq, rfl⟩ := Finset.mem_image.1 hp; exact h.right q hq
    · intro p hp; obtain ⟨q, hq, rfl⟩ := Finset.mem_image.1 hp; exact h.left q hq
    · intro p hp p' hp' he
      obtain ⟨q, hq, rfl⟩ := Finset.mem_image.1 hp
      obtain ⟨q', hq', rfl⟩ := Finset.mem_image.1 hp'
      rw [h.injRight q hq q' hq' he]
    · intro p hp p' hp' he
      obtain ⟨q, hq, rfl⟩ := Finset.mem_image.1 hp
      obtain ⟨q', hq', rfl⟩ := Finset.mem_image.1 hp'
      rw [h.injLeft q hq q' hq' he]
    · rw [hcard, h.full, min_comm]
  · rw [distance, distance, Finset.sum_image (fun x _ y _ he => Prod.swap_injective he)]
    exact Finset.sum_congr rfl (fun p _ => abs_sub_comm _ _)

theorem cheapest_swap {A B : Finset ℤ} {S S' : Finset (ℤ × ℤ)} (h : Cheapest A B S)
    (h' : Cheapest B A S') : distance S = distance S' := by
  have h1 := pairing_swap h.1
  have h2 := pairing_swap h'.1
  have h3 := h.2 _ h2.1
  have h4 := h'.2 _ h1.1
  rw [h2.2] at h3
  rw [h1.2] at h4
  exact le_antisymm h3 h4

theorem sum_subsOf (rt : Runtime) (i : ℕ) (A B : Finset ℤ) :
    ((subsOf rt i A B).map (fun s => |s.typeA - s.typeB|)).sum = distance (bestPairs A B) := by
  rw [subsOf, List.map_map, distance, ← rt.orderP_toFinset [3, i] (bestPairs A B),
    List.sum_toFinset _ (rt.orderP_nodup _ _)]
  rw [rt.orderP_toFinset]
  rfl

theorem sum_flatMap_range {β : Type _} (n : ℕ) (f : ℕ → List β) (g : β → ℤ) :
    (((List.range n).flatMap f).map g).sum = ∑ p ∈ Finset.range n, ((f p).map g).sum := by
  induction n with
  | zero => rfl
  | succ n ih => simp [List.range_succ, Finset.sum_range_succ, ih]

theorem countP_side (rt : Runtime) (i : ℕ) (A B : Finset ℤ) :
    (addsOf rt i A B).countP (fun x => decide (x.side = .a)) = A.card - B.card ∧
    (addsOf rt i A B).countP (fun x => decide (x.side = .b)) = B.card - A.card := by
  have hp := (bestPairs_cheapest A B).1
  constructor
  · rw [addsOf, List.countP_append, List.countP_map, List.countP_map]
    have h1 : ∀ l : List ℤ, l.countP ((fun x => decide (x.side = .a)) ∘
        (fun t => Addition.mk t .a)) = l.length := by
      intro l; rw [List.countP_eq_length]; intro x _; simp
    have h2 : ∀ l : List ℤ, l.countP ((fun x => decide (x.side = .a)) ∘
        (fun t => Addition.mk t .b)) = 0 := by
      intro l; rw [List.countP_eq_zero]; intro x _; simp
    rw [h1, h2, rt.order_length, hp.card_left, add_zero]
  · rw [addsOf, List.countP_append, List.countP_map, List.countP_map]
    have h1 : ∀ l : List ℤ, l.countP ((fun x => decide (x.side = .b)) ∘
        (fun t => Addition.mk t .b)) = l.length := by
      intro l; rw [List.countP_eq_length]; intro x _; simp
    have h2 : ∀ l : List ℤ, l.countP ((fun x => decide (x.side = .b)) ∘
        (fun t => Addition.mk t .a)) = 0 := by
      intro l; rw [List.countP_eq_zero]; intro x _; simp
    rw [h1, h2, rt.order_length, hp.card_right, zero_add]

theorem addsOf_perm (rt rt' : Runtime) (i : ℕ) (A B : Finset ℤ) :
    (addsOf rt i A B).Perm (addsOf rt' i A B) :=
  (((rt.order_perm _ _).trans (rt'.order_perm _ _).symm).map _).append
    (((rt.order_perm _ _).trans (rt'.order_perm _ _).symm).map _)

theorem subsOf_perm (rt rt' : Runtime) (i : ℕ) (A B : Finset ℤ) :
    (subsOf rt i A B).Perm (subsOf rt' i A B) :=
  ((List.perm_ext_iff_of_nodup (rt.orderP_nodup _ _) (rt'.orderP_nodup _ _)).2
    (fun x => by rw [rt.orderP_mem, rt'.orderP_mem])).map _

theorem flatMap_perm {α β : Type _} (l : List α) {f g : α → List β} (h : ∀ x ∈ l, (f x).Perm (g x)) :
    (l.flatMap f).Perm (l.flatMap g) := by
  induction l with
  | nil => exact List.Perm.refl _
  | cons x xs ih =>
    rw [List.flatMap_cons, List.flatMap_cons]
    exact (h x (by simp)).append (ih (fun y hy => h y (by simp [hy])))

end SegEval
