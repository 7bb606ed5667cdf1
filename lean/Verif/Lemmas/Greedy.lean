import Verif.Lemmas.Bed
import Verif.Spec.Greedy

/-!
# The transposition search as a greedy choice
-/

namespace SegEval

open Spec

section Fold

variable {κ τ : Type _} (keyOf : τ → κ) (g : List τ → κ → List τ)

theorem fold_keys (hg : ∀ ts k, ∀ t ∈ g ts k, keyOf t = k) (keys : List κ) (ts : List τ) :
    ∃ r, keys.foldl (fun ts k => ts ++ g ts k) ts = ts ++ r ∧ ∀ t ∈ r, keyOf t ∈ keys := by
  induction keys generalizing ts with
  | nil => exact ⟨[], by simp, by simp⟩
  | cons k ks ih =>
    obtain ⟨r, h1, h2⟩ := ih (ts ++ g ts k)
    refine ⟨g ts k ++ r, by rw [List.foldl_cons, h1, List.append_assoc], ?_⟩
    intro t ht
    rcases List.mem_append.1 ht with ht | ht
    · rw [hg ts k t ht]; simp
    · exact List.mem_cons_of_mem _ (h2 t ht)

/-- A member of the result is what its own step made of the members with smaller keys. -/
theorem fold_mem {lt : κ → κ → Prop} [DecidableRel lt] (irr : ∀ k, ¬ lt k k)
    (asymm : ∀ j k, lt j k → ¬ lt k j) (hg : ∀ ts k, ∀ t ∈ g ts k, keyOf t = k) {keys : List κ}
    (hk : keys.Pairwise lt) {F : List τ} (hF : F = keys.foldl (fun ts k => ts ++ g ts k) [])
    {t : τ} (ht : keyOf t ∈ keys) :
    t ∈ F ↔ t ∈ g (F.filter (fun u => decide (lt (keyOf u) (keyOf t)))) (keyOf t) := by
  obtain ⟨k1, k2, hsplit⟩ := List.append_of_mem ht
  rw [hsplit] at hk hF
  obtain ⟨_, p2, p3⟩ := List.pairwise_append.1 hk
  have p4 := (List.pairwise_cons.1 p2).1
  obtain ⟨F1, e1, m1⟩ := fold_keys keyOf g hg k1 []
  rw [List.nil_append] at e1
  obtain ⟨F2, e2, m2⟩ := fold_keys keyOf g hg k2 (F1 ++ g F1 (keyOf t))
  rw [List.foldl_append, e1, List.foldl_cons, e2, List.append_assoc] at hF
  have hfilter : F.filter (fun u => decide (lt (keyOf u) (keyOf t))) = F1 := by
    rw [hF, List.filter_append, List.filter_append]
    rw [List.filter_eq_self.2, List.filter_eq_nil_iff.2, List.filter_eq_nil_iff.2]
    · simp
    · intro u hu
      simpa using asymm _ _ (p4 _ (m2 u hu))
    · intro u hu
      rw [hg _ _ u hu]
      simpa using irr _
    · intro u hu
      simpa using p3 _ (m1 u hu) _ (by simp)
  rw [hfilter, hF]
  constructor
  · intro h
    rcases List.mem_append.1 h with h | h
    · exact absurd (p3 _ (m1 t h) _ (List.mem_cons_self)) (irr _)
    rcases List.mem_append.1 h with h | h
    · exact h
    · exact absurd (p4 _ (m2 t h)) (irr _)
  · intro h
    exact List.mem_append_right _ (List.mem_append_left _ h)

theorem fold_sorted {lt : κ → κ → Prop} (irr : ∀ k, ¬ lt k k)
    (asymm : ∀ j k, lt j k → ¬ lt k j) (hg : ∀ ts k, ∀ t ∈ g ts k, keyOf t = k) {keys : List κ}
    (hk : keys.Pairwise lt) (ts : List τ) (hts : ts.Pairwise (fun t u => ¬ lt (keyOf u) (keyOf t)))
    (hb : ∀ t ∈ ts, ∀ k ∈ keys, ¬ lt k (keyOf t)) :
    (keys.foldl (fun ts k => ts ++ g ts k) ts).Pairwise (fun t u => ¬ lt (keyOf u) (keyOf t)) := by
  induction keys generalizing ts with
  | nil => exact hts
  | cons k ks ih =>
    obtain ⟨h1, h2⟩ := List.pairwise_cons.1 hk
    rw [List.foldl_cons]
    refine ih h2 _ ?_ ?_
    · refine List.pairwise_append.2 ⟨hts, ?_, ?_⟩
      · refine List.pairwise_of_forall_mem_list ?_
        intro t ht u hu
        rw [hg _ _ t ht, hg _ _ u hu]; exact irr k
      · intro t ht u hu
        rw [hg _ _ u hu]; exact hb t ht k (by simp)
    · intro t ht k' hk'
      rcases List.mem_append.1 ht with ht | ht
      · exact hb t ht k' (by simp [hk'])
      · rw [hg _ _ t ht]; exact asymm _ _ (h1 k' hk')

end Fold

/-- Span and start of the pairs of positions, in the order in which they are visited. -/
def keysOf (n : ℕ) (nT : ℤ) : List (ℕ × ℕ) :=
  (spans nT).flatMap (fun span => (List.range (n - span)).map (fun i => (span, i)))

/-- The order in which pairs of positions are visited. -/
def keyLt (j k : ℕ × ℕ) : Prop := j.1 < k.1 ∨ (j.1 = k.1 ∧ j.2 < k.2)

instance : DecidableRel keyLt := fun j k => by unfold keyLt; infer_instance

/-- Span and start. -/
def keyT (t : Transposition) : ℕ × ℕ := (t.stop - t.start, t.start)

theorem keysOf_sorted (n : ℕ) (nT : ℤ) : (keysOf n nT).Pairwise keyLt := by
  have hs : (spans nT).Pairwise (· < ·) := by
    rw [spans]
    refine List.pairwise_map.2 ?_
    exact List.pairwise_lt_range.imp (fun h => by omega)
  unfold keysOf
  rw [List.pairwise_flatMap]
  refine ⟨fun span _ => List.pairwise_map.2 (List.pairwise_lt_range.imp (fun h => .inr ⟨rfl, h⟩)), ?_⟩
  refine hs.imp ?_
  rintro x y hxy u hu v hv
  obtain ⟨_, _, rfl⟩ := List.mem_map.1 hu
  obtain ⟨_, _, rfl⟩ := List.mem_map.1 hv
  exact .inl hxy

theorem mem_keysOf {n : ℕ} {nT : ℤ} {k : ℕ × ℕ} :
    k ∈ keysOf n nT ↔ 0 < k.1 ∧ (k.1 : ℤ) < nT ∧ k.2 + k.1 < n := by
  obtain ⟨s, i⟩ := k
  simp only [keysOf, List.mem_flatMap, List.mem_map, List.mem_range, Prod.mk.injEq, mem_spans]
  constructor
  · rintro ⟨x, ⟨h1, h2⟩, y, h3, rfl, rfl⟩; exact ⟨h1, h2, by omega⟩
  · rintro ⟨h1, h2, h3⟩; exact ⟨s, ⟨h1, h2⟩, i, by omega, rfl, rfl⟩

/-- What one visit adds. -/
def visit (rt : Runtime) (a b : BString) (ts : List Transposition) (k : ℕ × ℕ) :
    List Transposition :=
  newT a b k.2 (k.2 + k.1) ts (rt.order [0, k.1, k.2] (candidates a b k.2 (k.2 + k.1)))

theorem visit_key (rt : Runtime) (a b : BString) (ts : List Transposition) (k : ℕ × ℕ) :
    ∀ t ∈ visit rt a b ts k, keyT t = k := by
  intro t ht
  unfold visit newT at ht
  split at ht
  · simp at ht
  · obtain ⟨d, _, rfl⟩ := List.mem_map.1 ht
    simp [keyT]

theorem foldl_congr_mem {α β : Type _} (f g : β → α → β) (l : List α)
    (h : ∀ s, ∀ x ∈ l, f s x = g s x) (s : β) : l.foldl f s = l.foldl g s := by
  induction l generalizing s with
  | nil => rfl
  | cons x xs ih =>
    rw [List.foldl_cons, List.foldl_cons, h s x (by simp)]
    exact ih (fun s y hy => h s y (by simp [hy])) _

theorem foldl_flatMap_pairs {σ : Type _} (f : σ → ℕ × ℕ → σ) (l : List ℕ) (r : ℕ → List ℕ) (s : σ) :
    (l.flatMap (fun x => (r x).map (fun i => (x, i)))).foldl f s =
      l.foldl (fun s x => (r x).foldl (fun s i => f s (x, i)) s) s := by
  induction l generalizing s with
  | nil => rfl
  | cons x xs ih => rw [List.flatMap_cons, List.foldl_append, ih, List.foldl_cons, List.foldl_map]

theorem allT_fold {rt : Runtime} {a b : BString} (h : a.length ≤ b.length) (hs : SharedTypes rt a b)
    (nT : ℤ) : allT rt a b nT =
      (keysOf a.length nT).foldl (fun ts k => ts ++ visit rt a b ts k) [] := by
  rw [keysOf, foldl_flatMap_pairs, allT]
  refine foldl_congr_mem _ _ _ (fun ts span hspan => ?_) []
  rw [spanT]
  refine foldl_congr_mem _ _ _ (fun ts i hi => ?_) ts
  rw [List.mem_range] at hi
  rw [posT_eq h (mem_spans.1 hspan).1 (by omega) hs, visit]

theorem keyLt_irr (k : ℕ × ℕ) : ¬ keyLt k k := by unfold keyLt; omega

theorem keyLt_asymm (j k : ℕ × ℕ) : keyLt j k → ¬ keyLt k j := by unfold keyLt; omega

theorem substitutable_iff {a b : BString} {ts : List Transposition} {t : Transposition} :
    Substitutable a b ts t ↔ Blocked a b ts t.start t.stop := by
  constructor
  · intro h; exact ⟨h _ (.inl rfl), h _ (.inr rfl)⟩
  · rintro ⟨h1, h2⟩ p (rfl | rfl)
    · exact h1
    · exact h2

theorem allT_greedy {rt : Runtime} {a b : BString} (h : a.length ≤ b.length)
    (hs : SharedTypes rt a b) {nT : ℤ} {t : Transposition} (hg : Genuine a b nT t) :
    t ∈ allT rt a b nT ↔ (∀ u ∈ earlier (allT rt a b nT) t, ¬ Collide t u) ∧
      ¬ Substitutable a b (earlier (allT rt a b nT) t) t := by
  have ho := hg.ordered
  have hr := hg.inRange
  have hsp := hg.span
  have hkey : keyT t ∈ keysOf a.length nT :=
    mem_keysOf.2 ⟨by simp only [keyT]; omega, by simp only [keyT]; omega, by simp only [keyT]; omega⟩
  have hmem := fold_mem keyT (visit rt a b) (lt := keyLt) keyLt_irr keyLt_asymm (visit_key rt a b)
    (keysOf_sorted a.length nT) (allT_fold h hs nT) hkey
  have hfe : (allT rt a b nT).filter (fun u => decide (keyLt (keyT u) (keyT t))) =
      earlier (allT rt a b nT) t := rfl
  rw [hfe] at hmem
  rw [hmem]
  set ts := earlier (allT rt a b nT) t with hts
  have hstop : t.start + (t.stop - t.start) = t.stop := by omega
  rw [visit, newT]
  simp only [keyT, hstop]
  have hclash : (∀ u ∈ ts, ¬ Collide t u) ↔
      t.type ∉ transposedAt ts t.start ∧ t.type ∉ transposedAt ts t.stop := by
    rw [mem_transposedAt, mem_transposedAt]
    constructor
    · intro hc
      constructor
      · rintro ⟨u, hu, h1, h2⟩; exact hc u hu ⟨h2.symm, _, .inl rfl, h1⟩
      · rintro ⟨u, hu, h1, h2⟩; exact hc u hu ⟨h2.symm, _, .inr rfl, h1⟩
    · rintro ⟨h1, h2⟩ u hu ⟨h3, p, h4 | h4, h5⟩
      · exact h1 ⟨u, hu, h4 ▸ h5, h3.symm⟩
      · exact h2 ⟨u, hu, h4 ▸ h5, h3.symm⟩
  rw [hclash, substitutable_iff]
  by_cases hb : Blocked a b ts t.start t.stop
  · simp [hb]
  · rw [if_neg hb]
    simp only [List.mem_map, List.mem_filter, decide_eq_true_eq, rt.mem_order, hb, not_false_eq_true,
      and_true]
    constructor
    · rintro ⟨d, ⟨_, h2⟩, he⟩
      rw [← show d = t.type from congrArg Transposition.type he]; exact h2
    · intro h2
      exact ⟨t.type, ⟨mem_candidates.2 hg.moves, h2⟩, rfl⟩

theorem allT_sorted {rt : Runtime} {a b : BString} (h : a.length ≤ b.length)
    (hs : SharedTypes rt a b) (nT : ℤ) :
    (allT rt a b nT).Pairwise (fun t u => ¬ Earlier u t) := by
  rw [allT_fold h hs nT]
  exact fold_sorted keyT (visit rt a b) (lt := keyLt) keyLt_irr keyLt_asymm (visit_key rt a b)
    (keysOf_sorted a.length nT) [] List.Pairwise.nil (by simp)

/-- The choice determines the transpositions. -/
theorem greedy_unique {a b : BString} {nT : ℤ} {ts us : List Transposition}
    (gt : ∀ t ∈ ts, Genuine a b nT t) (gu : ∀ t ∈ us, Genuine a b nT t)
    (ht : ∀ t, Genuine a b nT t → (t ∈ ts ↔ (∀ u ∈ earlier ts t, ¬ Collide t u) ∧
      ¬ Substitutable a b (earlier ts t) t))
    (hu : ∀ t, Genuine a b nT t → (t ∈ us ↔ (∀ u ∈ earlier us t, ¬ Collide t u) ∧
      ¬ Substitutable a b (earlier us t) t)) (t : Transposition) : t ∈ ts ↔ t ∈ us := by
  have key : ∀ s i : ℕ, ∀ t : Transposition, t.stop - t.start = s → t.start = i →
      (t ∈ ts ↔ t ∈ us) := by
    intro s
    induction s using Nat.strong_induction_on with
    | _ s ihs =>
      intro i
      induction i using Nat.strong_induction_on with
      | _ i ihi =>
        intro t h1 h2
        have hearlier : ∀ u, u ∈ earlier ts t ↔ u ∈ earlier us t := by
          intro u
          simp only [earlier, List.mem_filter, decide_eq_true_eq]
          constructor
          · rintro ⟨m, h | ⟨h, h'⟩⟩
            · exact ⟨(ihs _ (h1 ▸ h) _ u rfl rfl).1 m, .inl h⟩
            · exact ⟨(ihi _ (h2 ▸ h') u (h.trans h1) rfl).1 m, .inr ⟨h, h'⟩⟩
          · rintro ⟨m, h | ⟨h, h'⟩⟩
            · exact ⟨(ihs _ (h1 ▸ h) _ u rfl rfl).2 m, .inl h⟩
            · exact ⟨(ihi _ (h2 ▸ h') u (h.trans h1) rfl).2 m, .inr ⟨h, h'⟩⟩
        have htr : ∀ p, transposedAt (earlier ts t) p = transposedAt (earlier us t) p := by
          intro p
          ext d
          rw [mem_transposedAt, mem_transposedAt]
          simp only [hearlier]
        have hsub : Substitutable a b (earlier ts t) t ↔ Substitutable a b (earlier us t) t := by
          simp only [Substitutable, leftover, htr]
        by_cases hg : Genuine a b nT t
        · rw [ht t hg, hu t hg, hsub]
          simp only [hearlier]
        · exact ⟨fun h => absurd (gt t h) hg, fun h => absurd (gu t h) hg⟩
  exact key _ _ t rfl rfl

end SegEval
