import Verif.Spec.Edit
import Mathlib.Tactic.Ring
import Mathlib.Tactic.Linarith
import Mathlib.Tactic.FieldSimp

namespace SegEval

open Spec

/-! ## Loops -/

theorem forLoop_ok {α σ τ : Type _} (l : List α) (f : σ → α → Py σ) (g : τ → σ) (h : τ → α → τ)
    (hf : ∀ t, ∀ x ∈ l, f (g t) x = .ok (g (h t x))) (t : τ) :
    forLoop l (g t) f = .ok (g (l.foldl h t)) := by
  induction l generalizing t with
  | nil => rfl
  | cons x xs ih =>
    simp only [forLoop, hf t x (by simp), List.foldl_cons]
    exact ih (fun t y hy => hf t y (by simp [hy])) (h t x)

theorem foldl_inv {α τ : Type _} (P : τ → Prop) (l : List α) (h : τ → α → τ)
    (hP : ∀ t, ∀ x ∈ l, P t → P (h t x)) (t : τ) (ht : P t) : P (l.foldl h t) := by
  induction l generalizing t with
  | nil => exact ht
  | cons x xs ih =>
    exact ih (fun t y hy => hP t y (by simp [hy])) _ (hP t x (by simp) ht)

theorem foldl_rel {α τ : Type _} (R : τ → τ → Prop) (l : List α) (h h' : τ → α → τ)
    (hR : ∀ t t', ∀ x ∈ l, R t t' → R (h t x) (h' t' x)) (t t' : τ) (ht : R t t') :
    R (l.foldl h t) (l.foldl h' t') := by
  induction l generalizing t t' with
  | nil => exact ht
  | cons x xs ih =>
    exact ih (fun t t' y hy => hR t t' y (by simp [hy])) _ _ (hR t t' x (by simp) ht)

/-! ## Sets visited in some order -/

theorem Runtime.mem_order (rt : Runtime) (site : List ℕ) (s : Finset ℤ) (x : ℤ) :
    x ∈ rt.order site s ↔ x ∈ s := by
  rw [(rt.order_perm site s).mem_iff, ← Multiset.mem_coe, sortedZ_coe]; exact Iff.rfl

theorem sortedZ_nodup (s : Finset ℤ) : (sortedZ s).Nodup := by
  have h := s.nodup
  rw [← sortedZ_coe s] at h
  exact Multiset.coe_nodup.1 h

theorem mem_sortedZ (s : Finset ℤ) (x : ℤ) : x ∈ sortedZ s ↔ x ∈ s := by
  rw [← Multiset.mem_coe, sortedZ_coe]; exact Iff.rfl

theorem sortedZ_length (s : Finset ℤ) : (sortedZ s).length = s.card := by
  rw [Finset.card_def, ← sortedZ_coe s]; rfl

theorem Runtime.order_nodup (rt : Runtime) (site : List ℕ) (s : Finset ℤ) :
    (rt.order site s).Nodup := (rt.order_perm site s).nodup_iff.2 (sortedZ_nodup s)

theorem Runtime.order_length (rt : Runtime) (site : List ℕ) (s : Finset ℤ) :
    (rt.order site s).length = s.card := by
  rw [(rt.order_perm site s).length_eq, sortedZ_length]

theorem Runtime.order_toFinset (rt : Runtime) (site : List ℕ) (s : Finset ℤ) :
    (rt.order site s).toFinset = s := by
  ext x; rw [List.mem_toFinset, rt.mem_order]

theorem Runtime.orderP_toFinset (rt : Runtime) (site : List ℕ) (s : Finset (ℤ × ℤ)) :
    (rt.orderP site s).toFinset = s := by
  ext x; rw [List.mem_toFinset, rt.orderP_mem]

theorem Runtime.orderP_length (rt : Runtime) (site : List ℕ) (s : Finset (ℤ × ℤ)) :
    (rt.orderP site s).length = s.card := by
  rw [← List.toFinset_card_of_nodup (rt.orderP_nodup site s), rt.orderP_toFinset]

/-! ## The pure transposition search -/

theorem mem_onlyIn {a b : BString} {p : ℕ} {d : ℤ} :
    d ∈ onlyIn a b p ↔ d ∈ typesAt a p ∧ d ∉ typesAt b p := by
  rw [onlyIn, Finset.mem_sdiff]

theorem missedAt_eq (a b : BString) (p : ℕ) :
    missedAt a b p = symmDiff (typesAt a p) (typesAt b p) := by
  ext d; simp only [missedAt, Finset.mem_union, mem_onlyIn, Finset.mem_symmDiff]

theorem onlyIn_disjoint (a b : BString) (p : ℕ) : _root_.Disjoint (onlyIn a b p) (onlyIn b a p) := by
  rw [Finset.disjoint_left]; intro d h1 h2
  exact (mem_onlyIn.1 h1).2 (mem_onlyIn.1 h2).1

theorem missedAt_comm (a b : BString) (p : ℕ) : missedAt a b p = missedAt b a p := by
  rw [missedAt, missedAt, Finset.union_comm]

theorem transposedAt_nil (p : ℕ) : transposedAt [] p = ∅ := rfl

theorem mem_transposedAt {ts : List Transposition} {p : ℕ} {d : ℤ} :
    d ∈ transposedAt ts p ↔ ∃ t ∈ ts, Touches t p ∧ t.type = d := by
  simp only [transposedAt, List.mem_toFinset, List.mem_map, List.mem_filter, decide_eq_true_eq]
  constructor
  · rintro ⟨t, ⟨h1, h2⟩, h3⟩; exact ⟨t, h1, h2, h3⟩
  · rintro ⟨t, h1, h2, h3⟩; exact ⟨t, ⟨h1, h2⟩, h3⟩

theorem transposedAt_append (ts us : List Transposition) (p : ℕ) :
    transposedAt (ts ++ us) p = transposedAt ts p ∪ transposedAt us p := by
  ext d; simp only [mem_transposedAt, Finset.mem_union, List.mem_append]
  constructor
  · rintro ⟨t, h1 | h1, h2⟩
    · exact Or.inl ⟨t, h1, h2⟩
    · exact Or.inr ⟨t, h1, h2⟩
  · rintro (⟨t, h1, h2⟩ | ⟨t, h1, h2⟩)
    · exact ⟨t, Or.inl h1, h2⟩
    · exact ⟨t, Or.inr h1, h2⟩

theorem transposedAt_perm {ts us : List Transposition} (h : ts.Perm us) (p : ℕ) :
    transposedAt ts p = transposedAt us p := by
  ext d; simp only [mem_transposedAt, h.mem_iff]

/-- The state of the search, as a function of the transpositions found so far. -/
def stateOf (a b : BString) (ts : List Transposition) : TState where
  optionsTransp p := ts.filter (fun t => decide (Touches t p))
  transpositions := ts
  options p := (optionalSetEdits a b p).map (fun x =>
    ⟨x.sim \ transposedAt ts p, x.ab \ transposedAt ts p, x.ba \ transposedAt ts p⟩)

/-- The candidate types of the two positions. -/
def candidates (a b : BString) (i j : ℕ) : Finset ℤ :=
  transpCandidates (typesAt a i) (typesAt a j) (typesAt b i) (typesAt b j)

theorem mem_candidates {a b : BString} {i j : ℕ} {d : ℤ} :
    d ∈ candidates a b i j ↔ Moves a b ⟨i, j, d⟩ := by
  simp only [candidates, transpCandidates, Finset.mem_inter, Finset.mem_symmDiff, Moves, mem_onlyIn]
  tauto

/-- Whether the search accepts a candidate. -/
def accepts (rt : Runtime) (a b : BString) (i j : ℕ) (ts : List Transposition) (d : ℤ) : Bool :=
  !(overlapsExisting rt i j d (stateOf a b ts).optionsTransp) &&
  !(hasSubstitutions i j d (stateOf a b ts).options)

/-- One candidate. -/
def stepT (rt : Runtime) (a b : BString) (i j : ℕ) (ts : List Transposition) (d : ℤ) :
    List Transposition :=
  if accepts rt a b i j ts d then ts ++ [⟨i, j, d⟩] else ts

/-- One pair of positions. -/
def posT (rt : Runtime) (a b : BString) (span : ℕ) (ts : List Transposition) (i : ℕ) :
    List Transposition :=
  (rt.order [0, span, i] (candidates a b i (i + span))).foldl (stepT rt a b i (i + span)) ts

/-- One span. -/
def spanT (rt : Runtime) (a b : BString) (ts : List Transposition) (span : ℕ) :
    List Transposition :=
  (List.range (a.length - span)).foldl (posT rt a b span) ts

/-- The whole search. -/
def allT (rt : Runtime) (a b : BString) (nT : ℤ) : List Transposition :=
  (spans nT).foldl (spanT rt a b) []

theorem typesAt_of_get {s : BString} {p : ℕ} {x : Finset ℤ} (h : s[p]? = some x) :
    typesAt s p = x := by simp [typesAt, h]

theorem optionalSetEdits_eq (a b : BString) (h : a.length ≤ b.length) (p : ℕ) :
    optionalSetEdits a b p =
      if p < a.length ∧ missedAt a b p ≠ ∅ then
        some ⟨missedAt a b p, onlyIn a b p, onlyIn b a p⟩ else none := by
  unfold optionalSetEdits
  by_cases hp : p < a.length
  · have ha : a[p]? = some a[p] := List.getElem?_eq_getElem hp
    have hb : b[p]? = some b[p] := List.getElem?_eq_getElem (by omega)
    rw [missedAt_eq, onlyIn, onlyIn, typesAt_of_get ha, typesAt_of_get hb, ha, hb]
    simp [hp, Finset.card_pos, Finset.nonempty_iff_ne_empty]
  · rw [List.getElem?_eq_none (by omega : a.length ≤ p)]
    simp [hp]

theorem options_stateOf (a b : BString) (h : a.length ≤ b.length) (ts : List Transposition)
    (p : ℕ) (hp : p < a.length) (hm : missedAt a b p ≠ ∅) :
    (stateOf a b ts).options p =
      some ⟨missedAt a b p \ transposedAt ts p, leftover a b ts p, leftover b a ts p⟩ := by
  simp only [stateOf, optionalSetEdits_eq a b h, hp, hm, ne_eq, not_false_eq_true, and_self,
    if_true, Option.map_some, leftover]

theorem moves_missed_start {a b : BString} {t : Transposition} (h : Moves a b t) :
    t.type ∈ missedAt a b t.start := by
  rcases h with h | h <;> simp [missedAt, h.1]

theorem moves_missed_stop {a b : BString} {t : Transposition} (h : Moves a b t) :
    t.type ∈ missedAt a b t.stop := by
  rcases h with h | h <;> simp [missedAt, h.2]

theorem transposedAt_singleton (t : Transposition) (p : ℕ) :
    transposedAt [t] p = if Touches t p then {t.type} else ∅ := by
  ext d; rw [mem_transposedAt]
  split <;> rename_i h <;> simp [h, eq_comm]

theorem erase_sdiff_eq (x u : Finset ℤ) (d : ℤ) : (x \ u).erase d = x \ (u ∪ {d}) := by
  ext y; simp only [Finset.mem_erase, Finset.mem_sdiff, Finset.mem_union, Finset.mem_singleton]; tauto

theorem discard_stateOf (a b : BString) (h : a.length ≤ b.length) (ts : List Transposition)
    (i j : ℕ) (d : ℤ) (hij : i ≠ j) (hi : i < a.length) (hj : j < a.length)
    (hmi : missedAt a b i ≠ ∅) (hmj : missedAt a b j ≠ ∅) :
    ∃ o1, discardAt (stateOf a b ts).options i d = .ok o1 ∧
      discardAt o1 j d = .ok (stateOf a b (ts ++ [⟨i, j, d⟩])).options := by
  refine ⟨_, by rw [discardAt, options_stateOf a b h ts i hi hmi], ?_⟩
  rw [discardAt, Function.update_of_ne hij.symm, options_stateOf a b h ts j hj hmj]
  simp only
  congr 1
  funext p
  by_cases hpj : p = j
  · subst hpj
    rw [Function.update_self, options_stateOf a b h _ p hj hmj]
    simp only [leftover, transposedAt_append, transposedAt_singleton, Touches, or_true, if_true,
      erase_sdiff_eq]
  · rw [Function.update_of_ne hpj]
    by_cases hpi : p = i
    · subst hpi
      rw [Function.update_self, options_stateOf a b h _ p hi hmi]
      simp only [leftover, transposedAt_append, transposedAt_singleton, Touches, true_or, if_true,
        erase_sdiff_eq]
    · rw [Function.update_of_ne hpi]
      simp only [stateOf, transposedAt_append, transposedAt_singleton, Touches]
      have : ¬ (i = p ∨ j = p) := by rintro (h | h) <;> simp_all
      simp [this]

theorem record_stateOf (a b : BString) (ts : List Transposition) (i j : ℕ) (d : ℤ) (hij : i ≠ j) :
    Function.update
      (Function.update (stateOf a b ts).optionsTransp i ((stateOf a b ts).optionsTransp i ++ [⟨i, j, d⟩]))
      j ((Function.update (stateOf a b ts).optionsTransp i
        ((stateOf a b ts).optionsTransp i ++ [⟨i, j, d⟩])) j ++ [⟨i, j, d⟩]) =
      (stateOf a b (ts ++ [⟨i, j, d⟩])).optionsTransp := by
  funext p
  by_cases hpj : p = j
  · subst hpj
    rw [Function.update_self, Function.update_of_ne hij.symm]
    simp [stateOf, Touches]
  · rw [Function.update_of_ne hpj]
    by_cases hpi : p = i
    · subst hpi
      rw [Function.update_self]
      simp [stateOf, Touches]
    · rw [Function.update_of_ne hpi]
      have : ¬ (i = p ∨ j = p) := by rintro (h | h) <;> simp_all
      simp [stateOf, Touches, this]

theorem transpBody_accept (rt : Runtime) (i j : ℕ) (s : TState) (d : ℤ) (o1 o2 : Options)
    (h1 : overlapsExisting rt i j d s.optionsTransp = false)
    (h2 : hasSubstitutions i j d s.options = false)
    (h3 : discardAt s.options i d = .ok o1) (h4 : discardAt o1 j d = .ok o2) :
    transpBody rt i j s d = .ok ⟨Function.update
      (Function.update s.optionsTransp i (s.optionsTransp i ++ [⟨i, j, d⟩]))
      j ((Function.update s.optionsTransp i (s.optionsTransp i ++ [⟨i, j, d⟩])) j ++ [⟨i, j, d⟩]),
      s.transpositions ++ [⟨i, j, d⟩], o2⟩ := by
  rw [transpBody, if_pos ⟨h1, h2⟩]
  simp only [h3, h4]

theorem transpBody_reject (rt : Runtime) (i j : ℕ) (s : TState) (d : ℤ)
    (h : ¬ (overlapsExisting rt i j d s.optionsTransp = false ∧
      hasSubstitutions i j d s.options = false)) : transpBody rt i j s d = .ok s := by
  rw [transpBody, if_neg h]

theorem accepts_iff (rt : Runtime) (a b : BString) (i j : ℕ) (ts : List Transposition) (d : ℤ) :
    accepts rt a b i j ts d = true ↔
      overlapsExisting rt i j d (stateOf a b ts).optionsTransp = false ∧
        hasSubstitutions i j d (stateOf a b ts).options = false := by
  rw [accepts, Bool.and_eq_true, Bool.not_eq_true', Bool.not_eq_true']

theorem ne_empty_of_mem' {s : Finset ℤ} {d : ℤ} (h : d ∈ s) : s ≠ ∅ := by
  rintro rfl; simp at h

theorem candidates_missed_left {a b : BString} {i j : ℕ} {d : ℤ} (h : d ∈ candidates a b i j) :
    d ∈ missedAt a b i := moves_missed_start (mem_candidates.1 h)

theorem candidates_missed_right {a b : BString} {i j : ℕ} {d : ℤ} (h : d ∈ candidates a b i j) :
    d ∈ missedAt a b j := moves_missed_stop (mem_candidates.1 h)

theorem transpBody_stateOf (rt : Runtime) (a b : BString) (h : a.length ≤ b.length)
    (ts : List Transposition) (i j : ℕ) (d : ℤ) (hij : i < j) (hj : j < a.length)
    (hd : d ∈ candidates a b i j) :
    transpBody rt i j (stateOf a b ts) d = .ok (stateOf a b (stepT rt a b i j ts d)) := by
  have hdi := candidates_missed_left hd
  have hdj := candidates_missed_right hd
  have hmi : missedAt a b i ≠ ∅ := ne_empty_of_mem' hdi
  have hmj : missedAt a b j ≠ ∅ := ne_empty_of_mem' hdj
  by_cases hacc : accepts rt a b i j ts d = true
  · have hc := (accepts_iff rt a b i j ts d).1 hacc
    obtain ⟨o1, h1, h2⟩ := discard_stateOf a b h ts i j d hij.ne (by omega) hj hmi hmj
    rw [transpBody_accept rt i j _ d o1 _ hc.1 hc.2 h1 h2, record_stateOf a b ts i j d hij.ne,
      stepT, if_pos hacc]
    rfl
  · rw [transpBody_reject rt i j _ d (fun hc => hacc ((accepts_iff rt a b i j ts d).2 hc)), stepT,
      if_neg hacc]

theorem transpositionsLoop_eq (rt : Runtime) (a b : BString) (h : a.length ≤ b.length) (nT : ℤ) :
    transpositionsLoop rt a b nT (optionalSetEdits a b) = .ok (stateOf a b (allT rt a b nT)) := by
  have h0 : (⟨fun _ => [], [], optionalSetEdits a b⟩ : TState) = stateOf a b [] := by
    unfold stateOf
    congr 1
    funext p
    cases optionalSetEdits a b p <;> simp [transposedAt_nil]
  rw [transpositionsLoop, h0]
  refine forLoop_ok _ _ (stateOf a b) (spanT rt a b) (fun ts span hspan => ?_) []
  refine forLoop_ok _ _ (stateOf a b) (posT rt a b span) (fun ts i hi => ?_) ts
  have hs : 0 < span := by
    simp only [spans, List.mem_map] at hspan
    obtain ⟨k, _, rfl⟩ := hspan; omega
  have hi' : i + span < a.length := by
    rw [List.mem_range] at hi; omega
  have e1 : a[i]? = some a[i] := List.getElem?_eq_getElem (by omega)
  have e2 : a[i + span]? = some a[i + span] := List.getElem?_eq_getElem (by omega)
  have e3 : b[i]? = some b[i] := List.getElem?_eq_getElem (by omega)
  have e4 : b[i + span]? = some b[i + span] := List.getElem?_eq_getElem (by omega)
  have hc : transpCandidates a[i] a[i + span] b[i] b[i + span] = candidates a b i (i + span) := by
    rw [candidates, typesAt_of_get e1, typesAt_of_get e2, typesAt_of_get e3, typesAt_of_get e4]
  simp only [transpPosition, e1, e2, e3, e4, hc]
  refine forLoop_ok _ _ (stateOf a b) (stepT rt a b i (i + span)) (fun ts d hd => ?_) ts
  exact transpBody_stateOf rt a b h ts i (i + span) d (by omega) hi' ((rt.mem_order _ _ _).1 hd)

end SegEval
