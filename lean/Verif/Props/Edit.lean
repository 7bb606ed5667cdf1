import Verif.Lemmas.Minimal

/-!
# C06–C15: boundary edit distance

Throughout, `rt` ranges over every behaviour of the interpreter that Python leaves open: set
iteration orders and identity of large ints.
-/

namespace SegEval.Props

open SegEval Spec

/-- Two strings with transpositions, a substitution and additions, used for the examples. -/
def exA : BString := [{1}, {1, 2}, ∅, {2}, {3}]
def exB : BString := [∅, {2}, {1}, {2, 5}, {1}]

theorem ascending_shared (a b : BString) : SharedTypes Runtime.ascending a b :=
  fun _ _ _ => Or.inr (fun _ => rfl)

example : boundaryEditDistance .ascending exA exB 2 =
    .ok ⟨[⟨1, .a⟩, ⟨5, .b⟩], [⟨3, 1⟩], [⟨1, 2, 1⟩]⟩ := by decide +kernel

/-- C06: every boundary missed by one of the strings is accounted for exactly once. -/
theorem C06_edits_account (rt : Runtime) (a b : BString) (hl : a.length = b.length) (nT : ℤ)
    (hs : SharedTypes rt a b) (e : Edits) (he : boundaryEditDistance rt a b nT = .ok e) :
    ∑ p ∈ Finset.range a.length, (missedAt a b p).card =
      e.additions.length + 2 * e.substitutions.length + 2 * e.transpositions.length := by
  rw [bed_edits (le_of_eq hl) he]
  exact sum_missed rt a b hl nT hs

/-- C06, type by type: the boundaries of type `d` only in the first string are the `a` additions,
the first halves of substitutions and the transpositions of that type. -/
theorem C06_edits_account_a (rt : Runtime) (a b : BString) (hl : a.length = b.length) (nT : ℤ)
    (hs : SharedTypes rt a b) (e : Edits) (he : boundaryEditDistance rt a b nT = .ok e) (d : ℤ) :
    ((Finset.range a.length).filter (fun p => d ∈ onlyIn a b p)).card =
      e.additions.countP (fun x => decide (x = ⟨d, .a⟩)) +
      e.substitutions.countP (fun s => decide (s.typeA = d)) +
      e.transpositions.countP (fun t => decide (t.type = d)) := by
  rw [bed_edits (le_of_eq hl) he, count_split a b (allT rt a b nT),
    count_transposed a b nT _ (allT_genuine rt a b nT) (allT_disjoint (le_of_eq hl) hs nT)]
  simp only [editsOf, countP_flatMap_range]
  rw [← Finset.sum_add_distrib]
  congr 1
  exact Finset.sum_congr rfl (fun p _ => (count_side_a rt p _ _ d).symm)

/-- C06, type by type, second string. -/
theorem C06_edits_account_b (rt : Runtime) (a b : BString) (hl : a.length = b.length) (nT : ℤ)
    (hs : SharedTypes rt a b) (e : Edits) (he : boundaryEditDistance rt a b nT = .ok e) (d : ℤ) :
    ((Finset.range a.length).filter (fun p => d ∈ onlyIn b a p)).card =
      e.additions.countP (fun x => decide (x = ⟨d, .b⟩)) +
      e.substitutions.countP (fun s => decide (s.typeB = d)) +
      e.transpositions.countP (fun t => decide (t.type = d)) := by
  rw [bed_edits (le_of_eq hl) he, count_split b a (allT rt a b nT), hl,
    count_transposed b a nT _ (fun t ht => genuine_comm hl (allT_genuine rt a b nT t ht))
      (allT_disjoint (le_of_eq hl) hs nT)]
  simp only [editsOf, countP_flatMap_range, hl]
  rw [← Finset.sum_add_distrib]
  congr 1
  exact Finset.sum_congr rfl (fun p _ => (count_side_b rt p _ _ d).symm)

example : ∃ e, boundaryEditDistance .ascending exA exB 2 = .ok e ∧
    e.additions ≠ [] ∧ e.substitutions ≠ [] ∧ e.transpositions ≠ [] ∧
    SharedTypes .ascending exA exB ∧ exA.length = exB.length :=
  ⟨⟨[⟨1, .a⟩, ⟨5, .b⟩], [⟨3, 1⟩], [⟨1, 2, 1⟩]⟩, by decide +kernel, by simp, by simp, by simp,
    ascending_shared _ _, rfl⟩

/-- C07: reported transpositions are genuine moves of one boundary within the window. -/
theorem C07_transpositions_genuine (rt : Runtime) (a b : BString) (hl : a.length = b.length)
    (nT : ℤ) (e : Edits) (he : boundaryEditDistance rt a b nT = .ok e) :
    ∀ t ∈ e.transpositions, Genuine a b nT t := by
  rw [bed_edits (le_of_eq hl) he]
  exact allT_genuine rt a b nT

/-- C07: no two reported transpositions of one type share a position (for shared type objects; see
C15 for what happens otherwise). -/
theorem C07_transpositions_disjoint (rt : Runtime) (a b : BString) (hl : a.length = b.length)
    (nT : ℤ) (hs : SharedTypes rt a b) (e : Edits)
    (he : boundaryEditDistance rt a b nT = .ok e) : Spec.Disjoint e.transpositions := by
  rw [bed_edits (le_of_eq hl) he]
  exact allT_disjoint (le_of_eq hl) hs nT

/-- C08: at every position the substitutions are a cheapest complete pairing of the boundaries that
transpositions leave there, and the additions are exactly the unpaired rest. -/
theorem C08_substitutions_cheapest (rt : Runtime) (a b : BString) (hl : a.length = b.length)
    (nT : ℤ) (e : Edits) (he : boundaryEditDistance rt a b nT = .ok e) :
    ∃ S : ℕ → Finset (ℤ × ℤ),
      (∀ p, Cheapest (leftover a b e.transpositions p) (leftover b a e.transpositions p) (S p)) ∧
      (e.substitutions : Multiset Substitution) =
        ∑ p ∈ Finset.range a.length, (S p).val.map (fun q => ⟨q.1, q.2⟩) ∧
      (e.additions : Multiset Addition) = ∑ p ∈ Finset.range a.length,
        ((leftover a b e.transpositions p \ (S p).image Prod.fst).val.map (fun t => ⟨t, .a⟩) +
         (leftover b a e.transpositions p \ (S p).image Prod.snd).val.map (fun t => ⟨t, .b⟩)) := by
  rw [bed_edits (le_of_eq hl) he]
  refine ⟨fun p => bestPairs (leftover a b (allT rt a b nT) p) (leftover b a (allT rt a b nT) p),
    fun p => bestPairs_cheapest _ _, ?_, ?_⟩
  · rw [editsOf, coe_flatMap_range]
    refine Finset.sum_congr rfl (fun p _ => ?_)
    rw [subsOf, ← Multiset.map_coe]
    congr 1
    have h1 := rt.orderP_toFinset [3, p]
      (bestPairs (leftover a b (allT rt a b nT) p) (leftover b a (allT rt a b nT) p))
    have h2 := rt.orderP_nodup [3, p]
      (bestPairs (leftover a b (allT rt a b nT) p) (leftover b a (allT rt a b nT) p))
    show _ = (bestPairs (leftover a b (allT rt a b nT) p) (leftover b a (allT rt a b nT) p)).val
    conv_rhs => rw [← h1]
    rw [List.toFinset_val, h2.dedup]
  · rw [editsOf, coe_flatMap_range]
    refine Finset.sum_congr rfl (fun p _ => ?_)
    have key : ∀ site (X : Finset ℤ), ((rt.order site X : List ℤ) : Multiset ℤ) = X.val := by
      intro site X
      conv_rhs => rw [← rt.order_toFinset site X]
      rw [List.toFinset_val, (rt.order_nodup site X).dedup]
    rw [addsOf, ← Multiset.coe_add, ← Multiset.map_coe, ← Multiset.map_coe, key, key]

/-- C09: boundary edit distance returns as long as, at every position, the strings differ in at most
256 boundary types. -/
theorem C09_total (rt : Runtime) (a b : BString) (hl : a.length = b.length) (nT : ℤ)
    (hsmall : ∀ p, (missedAt a b p).card ≤ 256) :
    ∃ e, boundaryEditDistance rt a b nT = .ok e := by
  refine ⟨_, bed_ok rt (le_of_eq hl) nT (fun p _ => ?_)⟩
  have h1 := hsmall p
  rw [missedAt, Finset.card_union_of_disjoint (onlyIn_disjoint a b p)] at h1
  have h2 := card_onlyIn_split a b (allT rt a b nT) p
  have h3 := card_onlyIn_split b a (allT rt a b nT) p
  unfold Balanced
  omega

/-- C09, sharper: the only possible failure is the identity comparison of two counts above 256. -/
theorem C09_only_failure (rt : Runtime) (a b : BString) (hl : a.length = b.length) (nT : ℤ)
    (err : PyErr) (he : boundaryEditDistance rt a b nT = .error err) :
    err = .assertionError ∧ ∃ p, 256 < (missedAt a b p).card := by
  by_cases hb : ∀ p < a.length, Balanced a b (allT rt a b nT) p
  · rw [bed_ok rt (le_of_eq hl) nT hb] at he; cases he
  · rw [bed_error rt (le_of_eq hl) nT hb] at he
    refine ⟨(Except.error.inj he).symm, ?_⟩
    by_contra hc
    push Not at hc
    obtain ⟨e, he'⟩ := C09_total rt a b hl nT hc
    rw [bed_error rt (le_of_eq hl) nT hb] at he'
    cases he'

/-- C09: the bound is sharp; 257 boundary types on one side at one position make it fail. -/
theorem C09_fails_above (rt : Runtime) (nT : ℤ) (X : Finset ℤ) (hX : 256 < X.card) :
    boundaryEditDistance rt [X] [∅] nT = .error .assertionError := by
  refine bed_error rt (a := [X]) (b := [∅]) (by simp) nT (fun hb => ?_)
  have h0 := hb 0 (by simp)
  have hT : ∀ t ∈ allT rt [X] [∅] nT, False := fun t ht => by
    have := allT_genuine rt _ _ nT t ht
    have h1 := this.ordered
    have h2 := this.inRange
    simp at h2; omega
  have hnil : allT rt [X] [∅] nT = [] := List.eq_nil_iff_forall_not_mem.2 (fun t ht => hT t ht)
  rw [hnil] at h0
  have e1 : leftover [X] [∅] [] 0 = X := by simp [leftover, onlyIn, typesAt, transposedAt_nil]
  have e2 : leftover [∅] [X] [] 0 = ∅ := by simp [leftover, onlyIn, typesAt]
  rw [Balanced, e1, e2] at h0
  simp at h0; omega

example : ∃ e, boundaryEditDistance .ascending [{1, 2, 3}, {3}] [∅, {4}] 2 = .ok e := by
  refine C09_total _ _ _ (by rfl) _ (fun p => ?_)
  match p with
  | 0 => decide +kernel
  | 1 => decide +kernel
  | p + 2 => simp [missedAt, onlyIn, typesAt]

/-- C10: there are no edits exactly when the strings are equal. -/
theorem C10_no_edits_iff (rt : Runtime) (a b : BString) (hl : a.length = b.length) (nT : ℤ) :
    boundaryEditDistance rt a b nT = .ok ⟨[], [], []⟩ ↔ a = b := by
  constructor
  · intro he
    have h1 := bed_edits (le_of_eq hl) he
    have hT : allT rt a b nT = [] := (congrArg Edits.transpositions h1).symm
    have hcost := edits_count rt a b nT
    rw [← h1, hT] at hcost
    simp only [List.length_nil, editsWith, zero_add] at hcost
    apply List.ext_getElem?
    intro p
    by_cases hp : p < a.length
    · have hz := (Finset.sum_eq_zero_iff.1 hcost.symm) p (Finset.mem_range.2 hp)
      have ea : onlyIn a b p = ∅ := by
        have : (leftover a b [] p).card = 0 := by omega
        simpa [leftover, transposedAt_nil] using this
      have eb : onlyIn b a p = ∅ := by
        have : (leftover b a [] p).card = 0 := by omega
        simpa [leftover, transposedAt_nil] using this
      have e1 : a[p]? = some a[p] := List.getElem?_eq_getElem hp
      have e2 : b[p]? = some b[p] := List.getElem?_eq_getElem (by omega)
      rw [onlyIn, typesAt_of_get e1, typesAt_of_get e2, Finset.sdiff_eq_empty_iff_subset] at ea
      rw [onlyIn, typesAt_of_get e1, typesAt_of_get e2, Finset.sdiff_eq_empty_iff_subset] at eb
      rw [e1, e2, Finset.Subset.antisymm ea eb]
    · rw [List.getElem?_eq_none (by omega), List.getElem?_eq_none (by omega)]
  · rintro rfl
    have hempty : ∀ p, missedAt a a p = ∅ := by intro p; simp [missedAt, onlyIn]
    have hT : allT rt a a nT = [] := by
      apply List.eq_nil_iff_forall_not_mem.2
      intro t ht
      have := moves_missed_start (allT_genuine rt a a nT t ht).moves
      rw [hempty] at this
      simp at this
    have hl' : ∀ p, leftover a a (allT rt a a nT) p = ∅ := fun p =>
      (leftover_empty_of_missed (hempty p) _).1
    rw [bed_ok rt (le_refl _) nT (fun p _ => by simp [Balanced])]
    simp only [editsOf, hl', addsOf_empty, subsOf_empty]
    simp [hT]

/-- C11: exchanging the strings yields the same transpositions up to order, as many additions with
the sides exchanged, as many substitutions and the same total substitution distance. -/
theorem C11_symmetric (rt rt' : Runtime) (a b : BString) (hl : a.length = b.length) (nT : ℤ)
    (hs : SharedTypes rt a b) (hs' : SharedTypes rt' a b) (e e' : Edits)
    (he : boundaryEditDistance rt a b nT = .ok e) (he' : boundaryEditDistance rt' b a nT = .ok e') :
    e.transpositions.Perm e'.transpositions ∧
    e.additions.countP (fun x => decide (x.side = .a)) =
      e'.additions.countP (fun x => decide (x.side = .b)) ∧
    e.additions.countP (fun x => decide (x.side = .b)) =
      e'.additions.countP (fun x => decide (x.side = .a)) ∧
    e.substitutions.length = e'.substitutions.length ∧
    (e.substitutions.map (fun s => |s.typeA - s.typeB|)).sum =
      (e'.substitutions.map (fun s => |s.typeA - s.typeB|)).sum := by
  rw [bed_edits (le_of_eq hl) he, bed_edits (le_of_eq hl.symm) he']
  have hp : (allT rt a b nT).Perm (allT rt' b a nT) := by
    rw [← allT_comm hl hs' nT]; exact allT_perm (le_of_eq hl) hs hs' nT
  have hlo : ∀ (x y : BString) p, leftover x y (allT rt' b a nT) p = leftover x y (allT rt a b nT) p :=
    fun x y p => by rw [leftover, leftover, transposedAt_perm hp]
  refine ⟨hp, ?_, ?_, ?_, ?_⟩
  · simp only [editsOf, countP_flatMap_range, (countP_side _ _ _ _).1, (countP_side _ _ _ _).2,
      hlo, hl]
  · simp only [editsOf, countP_flatMap_range, (countP_side _ _ _ _).1, (countP_side _ _ _ _).2,
      hlo, hl]
  · simp only [editsOf, length_flatMap_range, subsOf_length, hlo, hl]
    exact Finset.sum_congr rfl (fun p _ => min_comm _ _)
  · simp only [editsOf, sum_flatMap_range, sum_subsOf, hlo, hl]
    exact Finset.sum_congr rfl (fun p _ =>
      cheapest_swap (bestPairs_cheapest _ _) (bestPairs_cheapest _ _))

/-- C11: one direction returns exactly when the other does. -/
theorem C11_symmetric_total (rt rt' : Runtime) (a b : BString) (hl : a.length = b.length) (nT : ℤ)
    (hs : SharedTypes rt a b) (hs' : SharedTypes rt' a b) :
    (∃ e, boundaryEditDistance rt a b nT = .ok e) ↔
      ∃ e, boundaryEditDistance rt' b a nT = .ok e := by
  have hp : (allT rt a b nT).Perm (allT rt' b a nT) := by
    rw [← allT_comm hl hs' nT]; exact allT_perm (le_of_eq hl) hs hs' nT
  have hbal : ∀ p, Balanced a b (allT rt a b nT) p ↔ Balanced b a (allT rt' b a nT) p := by
    intro p
    simp only [Balanced, leftover, transposedAt_perm hp]
    rw [add_comm]
  constructor
  · rintro ⟨e, he⟩
    refine ⟨_, bed_ok rt' (le_of_eq hl.symm) nT (fun p hp' => ?_)⟩
    exact (hbal p).1 (((bed_iff rt (le_of_eq hl) nT e).1 he).1 p (by omega))
  · rintro ⟨e, he⟩
    refine ⟨_, bed_ok rt (le_of_eq hl) nT (fun p hp' => ?_)⟩
    exact (hbal p).2 (((bed_iff rt' (le_of_eq hl.symm) nT e).1 he).1 p (by omega))

/-- C12: whatever orders sets are visited in, the same edits are reported up to list order. -/
theorem C12_order_independent (rt rt' : Runtime) (a b : BString) (hl : a.length = b.length)
    (nT : ℤ) (hs : SharedTypes rt a b) (hs' : SharedTypes rt' a b) (e : Edits)
    (he : boundaryEditDistance rt a b nT = .ok e) :
    ∃ e', boundaryEditDistance rt' a b nT = .ok e' ∧ e.transpositions.Perm e'.transpositions ∧
      e.additions.Perm e'.additions ∧ e.substitutions.Perm e'.substitutions := by
  have hp := allT_perm (le_of_eq hl) hs hs' nT
  have hlo : ∀ (x y : BString) p, leftover x y (allT rt' a b nT) p = leftover x y (allT rt a b nT) p :=
    fun x y p => by rw [leftover, leftover, transposedAt_perm hp]
  obtain ⟨hb, rfl⟩ := (bed_iff rt (le_of_eq hl) nT e).1 he
  refine ⟨_, bed_ok rt' (le_of_eq hl) nT (fun p hp' => ?_), hp, ?_, ?_⟩
  · have := hb p hp'
    rw [Balanced] at this ⊢
    rwa [hlo, hlo]
  · refine flatMap_perm _ (fun p _ => ?_)
    rw [hlo, hlo]; exact addsOf_perm _ _ _ _ _
  · refine flatMap_perm _ (fun p _ => ?_)
    rw [hlo, hlo]; exact subsOf_perm _ _ _ _ _

/-- A run that visits every set in descending order, to show that C12 speaks of different runs. -/
def descending : Runtime where
  order _ s := (sortedZ s).reverse
  order_perm _ _ := List.reverse_perm _
  orderP _ s := (sortedP s).reverse
  orderP_nodup site s := List.nodup_reverse.2 (Runtime.ascending.orderP_nodup site s)
  orderP_mem site s x := by rw [List.mem_reverse]; exact Runtime.ascending.orderP_mem site s x
  sameObj _ _ := true

example : boundaryEditDistance descending [{1, 2}, ∅] [∅, {1, 2}] 2 = .ok ⟨[], [], [⟨0, 1, 2⟩, ⟨0, 1, 1⟩]⟩ ∧
    boundaryEditDistance .ascending [{1, 2}, ∅] [∅, {1, 2}] 2 =
      .ok ⟨[], [], [⟨0, 1, 1⟩, ⟨0, 1, 2⟩]⟩ := by decide +kernel

/-- C13: a larger window keeps the transpositions found so far, in order, as a prefix. -/
theorem C13_transpositions_prefix (rt : Runtime) (a b : BString) (hl : a.length = b.length)
    (m n : ℤ) (h : m ≤ n) (e e' : Edits) (he : boundaryEditDistance rt a b m = .ok e)
    (he' : boundaryEditDistance rt a b n = .ok e') :
    e.transpositions <+: e'.transpositions := by
  rw [bed_edits (le_of_eq hl) he, bed_edits (le_of_eq hl) he']
  exact allT_prefix rt a b h

/-- C13: a larger window never costs more edits. -/
theorem C13_edits_mono (rt : Runtime) (a b : BString) (hl : a.length = b.length)
    (hs : SharedTypes rt a b) (m n : ℤ) (h : m ≤ n) (e e' : Edits)
    (he : boundaryEditDistance rt a b m = .ok e) (he' : boundaryEditDistance rt a b n = .ok e') :
    e'.additions.length + e'.substitutions.length + e'.transpositions.length ≤
      e.additions.length + e.substitutions.length + e.transpositions.length := by
  rw [bed_edits (le_of_eq hl) he, bed_edits (le_of_eq hl) he', edits_count, edits_count]
  exact allT_cost_mono (le_of_eq hl) hs h

/-- C13: windows of at most one position find no transpositions. -/
theorem C13_no_window (rt : Runtime) (a b : BString) (hl : a.length = b.length) (n : ℤ) (h : n ≤ 1)
    (e : Edits) (he : boundaryEditDistance rt a b n = .ok e) : e.transpositions = [] := by
  rw [bed_edits (le_of_eq hl) he]
  apply List.eq_nil_iff_forall_not_mem.2
  intro t ht
  have hg := allT_genuine rt a b n t ht
  have h1 := hg.span
  have h2 := hg.ordered
  omega

example : (boundaryEditDistance .ascending [{1}, ∅, ∅] [∅, ∅, {1}] 2 = .ok ⟨[⟨1, .a⟩, ⟨1, .b⟩], [], []⟩) ∧
    (boundaryEditDistance .ascending [{1}, ∅, ∅] [∅, ∅, {1}] 3 = .ok ⟨[], [], [⟨0, 2, 1⟩]⟩) := by
  decide +kernel

/-- C14 (partial): the reported number of edits is the one its transpositions call for, and it is
minimal when the strings differ in one boundary type and transpositions span adjacent positions
(the default window).  Missing: it is false in general, see `C14_not_minimal_two_types` and
`C14_not_minimal_window`. -/
theorem C14_minimal_partial (rt : Runtime) (a b : BString) (hl : a.length = b.length)
    (hs : SharedTypes rt a b) (t : ℤ) (h1 : OneType a b t) (e : Edits)
    (he : boundaryEditDistance rt a b 2 = .ok e) (us : List Transposition)
    (hg : ∀ u ∈ us, Genuine a b 2 u) (hd : Spec.Disjoint us) :
    e.additions.length + e.substitutions.length + e.transpositions.length ≤ editsWith a b us := by
  rw [bed_edits (le_of_eq hl) he, edits_count]
  have c1 := oneType_cost hl h1 us hg hd
  have c2 := oneType_cost hl h1 (allT rt a b 2) (allT_genuine rt a b 2)
    (allT_disjoint (le_of_eq hl) hs 2)
  have hle : us.length ≤ (allT rt a b 2).length := by
    have hgl := greedy_largest (le_of_eq hl) hs h1 hg hd (a.length - 1) (le_refl _)
    have : countBelow us (a.length - 1) = us.length := by
      rw [countBelow, List.countP_eq_length]
      intro u hu
      have h1 := (hg u hu).ordered
      have h2 := (hg u hu).inRange
      simp only [decide_eq_true_eq]; omega
    rw [this] at hgl
    exact hgl
  omega

/-- C14: the count is always the one called for by the reported transpositions, and never more than
using no transposition at all. -/
theorem C14_count_partial (rt : Runtime) (a b : BString) (hl : a.length = b.length)
    (hs : SharedTypes rt a b) (nT : ℤ) (e : Edits) (he : boundaryEditDistance rt a b nT = .ok e) :
    e.additions.length + e.substitutions.length + e.transpositions.length =
      editsWith a b e.transpositions ∧ editsWith a b e.transpositions ≤ editsWith a b [] := by
  rw [bed_edits (le_of_eq hl) he, edits_count]
  refine ⟨rfl, ?_⟩
  show editsWith a b (allT rt a b nT) ≤ _
  rcases le_total nT 1 with h | h
  · have : allT rt a b nT = [] := by
      apply List.eq_nil_iff_forall_not_mem.2
      intro t ht
      have hg := allT_genuine rt a b nT t ht
      have h1 := hg.span
      have h2 := hg.ordered
      omega
    rw [this]
  · exact allT_cost_mono (le_of_eq hl) hs h

example : OneType [{1}, ∅, {1}, ∅] [∅, {1}, ∅, {1}] 1 ∧
    boundaryEditDistance .ascending [{1}, ∅, {1}, ∅] [∅, {1}, ∅, {1}] 2 =
      .ok ⟨[], [], [⟨0, 1, 1⟩, ⟨2, 3, 1⟩]⟩ := by
  refine ⟨fun p => ?_, by decide +kernel⟩
  match p with
  | 0 | 1 | 2 | 3 => decide +kernel
  | p + 4 => simp [missedAt, onlyIn, typesAt]

/-- C14 refuted: with two boundary types and the default window the search reports three edits
although one transposition and one substitution suffice. -/
theorem C14_not_minimal_two_types : ∃ (a b : BString) (e : Edits) (us : List Transposition),
    a.length = b.length ∧ boundaryEditDistance .ascending a b 2 = .ok e ∧
    (∀ u ∈ us, Genuine a b 2 u) ∧ Spec.Disjoint us ∧
    editsWith a b us < e.additions.length + e.substitutions.length + e.transpositions.length := by
  refine ⟨[{1}, ∅, {1}], [{2}, {1}, ∅], ⟨[⟨2, .b⟩, ⟨1, .a⟩], [], [⟨0, 1, 1⟩]⟩, [⟨1, 2, 1⟩], rfl,
    by decide +kernel, ?_, List.pairwise_singleton _ _, by decide +kernel⟩
  intro u hu
  rw [List.mem_singleton] at hu
  subst hu
  exact ⟨by decide, by decide, by decide, Or.inr (by decide +kernel)⟩

/-- C14 refuted: with one boundary type and window 3 the search reports three edits although two
transpositions suffice. -/
theorem C14_not_minimal_window : ∃ (a b : BString) (e : Edits) (us : List Transposition),
    a.length = b.length ∧ OneType a b 1 ∧ boundaryEditDistance .ascending a b 3 = .ok e ∧
    (∀ u ∈ us, Genuine a b 3 u) ∧ Spec.Disjoint us ∧
    editsWith a b us < e.additions.length + e.substitutions.length + e.transpositions.length := by
  refine ⟨[{1}, {1}, ∅, ∅], [∅, ∅, {1}, {1}], ⟨[⟨1, .a⟩, ⟨1, .b⟩], [], [⟨1, 2, 1⟩]⟩,
    [⟨0, 2, 1⟩, ⟨1, 3, 1⟩], rfl, ?_, by decide +kernel, ?_, ?_, by decide +kernel⟩
  · intro p
    match p with
    | 0 | 1 | 2 | 3 => decide +kernel
    | p + 4 => simp [missedAt, onlyIn, typesAt]
  · intro u hu
    simp only [List.mem_cons, List.not_mem_nil, or_false] at hu
    rcases hu with rfl | rfl
    · exact ⟨by decide, by decide, by decide, Or.inl (by decide +kernel)⟩
    · exact ⟨by decide, by decide, by decide, Or.inl (by decide +kernel)⟩
  · refine List.pairwise_pair.2 (fun _ p hp => ?_)
    unfold Touches at hp
    simp only at hp
    omega

/-- C15 (partial): transpositions are disjoint when types are cached ints.  Missing: the claim for
all types is false, see `C15_overlap_large_types`. -/
theorem C15_disjoint_small_types_partial (rt : Runtime) (a b : BString) (hl : a.length = b.length)
    (nT : ℤ) (hsmall : ∀ p, ∀ t ∈ missedAt a b p, -5 ≤ t ∧ t ≤ 256) (e : Edits)
    (he : boundaryEditDistance rt a b nT = .ok e) : Spec.Disjoint e.transpositions := by
  refine C07_transpositions_disjoint rt a b hl nT (fun p t ht => Or.inl ?_) e he
  have := hsmall p t ht
  simp [smallInt, this.1, this.2]

example : ∀ p, ∀ t ∈ missedAt exA exB p, -5 ≤ t ∧ t ≤ 256 := by
  intro p
  match p with
  | 0 | 1 | 2 | 3 | 4 => decide +kernel
  | p + 5 => simp [missedAt, onlyIn, typesAt, exA, exB]

/-- A run in which equal large boundary types are separate objects. -/
def separate : Runtime := { Runtime.ascending with sameObj := fun _ _ => false }

/-- C15 (partial): whatever objects represent the types, two reported transpositions of one type
share a position only if the type lies outside -5..256 and the search, at that very comparison, had
two different objects for it.  Missing: that this never happens, which is false, see
`C15_overlap_any_large_type`. -/
theorem C15_overlap_only_separate_partial (rt : Runtime) (a b : BString)
    (hl : a.length = b.length) (nT : ℤ) (e : Edits)
    (he : boundaryEditDistance rt a b nT = .ok e) :
    e.transpositions.Pairwise (fun t u => t.type = u.type →
      (∃ p, Touches t p ∧ Touches u p) →
      (u.type < -5 ∨ 256 < u.type) ∧
        rt.sameObj [u.start, u.stop, t.start, t.stop] u.type = false) := by
  rw [bed_edits (le_of_eq hl) he]
  refine (allT_overlap rt a b nT).imp ?_
  rintro t u h htype ⟨p, hp, hq⟩
  obtain ⟨h1, h2⟩ := h htype p hp hq
  refine ⟨?_, h2⟩
  by_contra hc
  push Not at hc
  rw [smallInt, Bool.and_eq_false_iff, decide_eq_false_iff_not, decide_eq_false_iff_not] at h1
  rcases h1 with h1 | h1
  · exact h1 hc.1
  · exact h1 hc.2

/-- C15 refuted for every type outside -5..256: a run that compares two objects for it moves one
boundary twice, and the accounting of C06 breaks. -/
theorem C15_overlap_any_large_type (rt : Runtime) (t : ℤ) (ht : t < -5 ∨ 256 < t)
    (hr : rt.sameObj [1, 2, 0, 1] t = false) : ∃ (a b : BString) (e : Edits),
    a.length = b.length ∧ boundaryEditDistance rt a b 2 = .ok e ∧
    ¬ Spec.Disjoint e.transpositions ∧ (∀ p, missedAt a b p ⊆ {t}) ∧
    ∑ p ∈ Finset.range a.length, (missedAt a b p).card ≠
      e.additions.length + 2 * e.substitutions.length + 2 * e.transpositions.length := by
  have hs : smallInt t = false := by
    rw [smallInt, Bool.and_eq_false_iff, decide_eq_false_iff_not, decide_eq_false_iff_not]
    omega
  refine ⟨[{t}, ∅, {t}], [∅, {t}, ∅], _, rfl, twice_bed rt t hs hr, ?_, ?_, ?_⟩
  · intro h
    exact List.pairwise_pair.1 h rfl 1 ⟨Or.inr rfl, Or.inl rfl⟩
  · intro p
    match p with
    | 0 | 1 | 2 => simp [missedAt, onlyIn, typesAt]
    | p + 3 => simp [missedAt, onlyIn, typesAt]
  · simp [Finset.sum_range_succ, missedAt, onlyIn, typesAt]

example : (1000 : ℤ) < -5 ∨ 256 < (1000 : ℤ) := by decide

example : separate.sameObj [1, 2, 0, 1] 1000 = false := rfl

/-- C15 refuted: if equal boundary types above 256 are separate objects, one boundary takes part in
two transpositions, and the accounting of C06 breaks. -/
theorem C15_overlap_large_types : ∃ (a b : BString) (e : Edits),
    a.length = b.length ∧ boundaryEditDistance separate a b 2 = .ok e ∧
    ¬ Spec.Disjoint e.transpositions ∧
    ∑ p ∈ Finset.range a.length, (missedAt a b p).card ≠
      e.additions.length + 2 * e.substitutions.length + 2 * e.transpositions.length := by
  refine ⟨[{1000}, ∅, {1000}], [∅, {1000}, ∅], ⟨[], [], [⟨0, 1, 1000⟩, ⟨1, 2, 1000⟩]⟩, rfl,
    by decide +kernel, ?_, by decide +kernel⟩
  intro h
  exact List.pairwise_pair.1 h rfl 1 ⟨Or.inr rfl, Or.inl rfl⟩

end SegEval.Props
