import Verif.Lemmas.Greedy
import Verif.Lemmas.Formula
import Verif.Spec.Locality

/-!
# Edits of parts of a document
-/

namespace SegEval

open Spec

/-- `ts` is the choice of transpositions described by C65. -/
structure Chosen (a b : BString) (nT : ℤ) (ts : List Transposition) : Prop where
  genuine : ∀ t ∈ ts, Genuine a b nT t
  rule : ∀ t, Genuine a b nT t → (t ∈ ts ↔ (∀ u ∈ earlier ts t, ¬ Collide t u) ∧
    ¬ Substitutable a b (earlier ts t) t)

theorem allT_chosen {rt : Runtime} {a b : BString} (hl : a.length = b.length)
    (hs : SharedTypes rt a b) (nT : ℤ) : Chosen a b nT (allT rt a b nT) :=
  ⟨allT_genuine rt a b nT, fun _ ht => allT_greedy (le_of_eq hl) hs ht⟩

theorem Chosen.mem_iff {a b : BString} {nT : ℤ} {ts us : List Transposition} (h : Chosen a b nT ts)
    (h' : Chosen a b nT us) (t : Transposition) : t ∈ ts ↔ t ∈ us :=
  greedy_unique h.genuine h'.genuine h.rule h'.rule t

theorem moved_injective (k : ℕ) : Function.Injective (moved k) := by
  rintro ⟨a, b, c⟩ ⟨a', b', c'⟩ h
  simp only [moved, Transposition.mk.injEq] at h ⊢
  omega

/-- The transpositions between positions `k` and `k + n`, moved to the left by `k`. -/
def partT (k n : ℕ) (ts : List Transposition) : List Transposition :=
  (ts.filter (fun t => decide (k ≤ t.start ∧ k ≤ t.stop ∧ t.stop < k + n))).map
    (fun t => ⟨t.start - k, t.stop - k, t.type⟩)

theorem mem_partT {k n : ℕ} {ts : List Transposition} {t : Transposition} :
    t ∈ partT k n ts ↔ moved k t ∈ ts ∧ t.stop < n := by
  simp only [partT, List.mem_map, List.mem_filter, decide_eq_true_eq]
  constructor
  · rintro ⟨⟨i, j, d⟩, ⟨h1, h2, h3, h4⟩, rfl⟩
    simp only at h2 h3 h4
    have e1 : i - k + k = i := by omega
    have e2 : j - k + k = j := by omega
    simp only [moved, e1, e2]
    exact ⟨h1, by omega⟩
  · rintro ⟨h1, h2⟩
    exact ⟨_, ⟨h1, by simp [moved], by simp [moved], by simp only [moved]; omega⟩,
      by simp [moved]⟩

theorem touches_shift {k : ℕ} {t : Transposition} {p : ℕ} :
    Touches (moved k t) (p + k) ↔ Touches t p := by
  simp only [Touches, moved]; omega

theorem earlier_shift {k : ℕ} {t u : Transposition} :
    Earlier (moved k u) (moved k t) ↔ Earlier u t := by
  simp only [Earlier, moved]; omega

theorem transposedAt_congr {ts us : List Transposition} {p q : ℕ}
    (h : ∀ d, (∃ t ∈ ts, Touches t p ∧ t.type = d) ↔ ∃ t ∈ us, Touches t q ∧ t.type = d) :
    transposedAt ts p = transposedAt us q := by
  ext d; rw [mem_transposedAt, mem_transposedAt, h]

/-- The strings `a'`, `b'` are the part of `a`, `b` from position `k` on, and no transposition leads
out of it. -/
structure PartOf (a b : BString) (nT : ℤ) (k : ℕ) (a' b' : BString) : Prop where
  len : a'.length = b'.length
  fits : k + a'.length ≤ a.length
  left : ∀ p < a'.length, typesAt a' p = typesAt a (p + k)
  right : ∀ p < a'.length, typesAt b' p = typesAt b (p + k)
  inside : ∀ t, Genuine a b nT t → ∀ p < a'.length, Touches t (p + k) →
    k ≤ t.start ∧ t.stop < k + a'.length

namespace PartOf

variable {a b a' b' : BString} {nT : ℤ} {k : ℕ}

theorem onlyIn_left (h : PartOf a b nT k a' b') {p : ℕ} (hp : p < a'.length) :
    onlyIn a' b' p = onlyIn a b (p + k) := by
  rw [onlyIn, onlyIn, h.left p hp, h.right p hp]

theorem onlyIn_right (h : PartOf a b nT k a' b') {p : ℕ} (hp : p < a'.length) :
    onlyIn b' a' p = onlyIn b a (p + k) := by
  rw [onlyIn, onlyIn, h.left p hp, h.right p hp]

theorem genuine_iff (h : PartOf a b nT k a' b') (t : Transposition) :
    Genuine a' b' nT t ↔ Genuine a b nT (moved k t) ∧ t.stop < a'.length := by
  constructor
  · rintro ⟨h1, h2, h3, h4⟩
    refine ⟨⟨by simp only [moved]; omega, by have := h.fits; simp only [moved]; omega,
      by simp only [moved]; push_cast; omega, ?_⟩, h2⟩
    rw [Moves, h.onlyIn_left h2, h.onlyIn_right h2, h.onlyIn_left (h1.trans h2),
      h.onlyIn_right (h1.trans h2)] at h4
    exact h4
  · rintro ⟨⟨h1, h2, h3, h4⟩, h5⟩
    simp only [moved] at h1 h2 h3
    have h1' : t.start < t.stop := by omega
    refine ⟨h1', h5, by push_cast at h3; omega, ?_⟩
    rw [Moves, h.onlyIn_left h5, h.onlyIn_right h5, h.onlyIn_left (h1'.trans h5),
      h.onlyIn_right (h1'.trans h5)]
    exact h4

theorem mem_of_touches (h : PartOf a b nT k a' b') {ts : List Transposition}
    (hg : ∀ t ∈ ts, Genuine a b nT t) {u : Transposition} (hu : u ∈ ts) {p : ℕ}
    (hp : p < a'.length) (ht : Touches u (p + k)) :
    ∃ v, v ∈ partT k a'.length ts ∧ u = moved k v := by
  obtain ⟨h1, h2⟩ := h.inside u (hg u hu) p hp ht
  have h3 := (hg u hu).ordered
  have he : u = moved k ⟨u.start - k, u.stop - k, u.type⟩ := by
    obtain ⟨i, j, d⟩ := u
    simp only [moved, Transposition.mk.injEq] at h1 h2 h3 ⊢
    exact ⟨by omega, by omega, trivial⟩
  refine ⟨_, mem_partT.2 ⟨he ▸ hu, ?_⟩, he⟩
  simp only
  omega

theorem transposed (h : PartOf a b nT k a' b') {ts : List Transposition}
    (hg : ∀ t ∈ ts, Genuine a b nT t) {p : ℕ} (hp : p < a'.length) :
    transposedAt (partT k a'.length ts) p = transposedAt ts (p + k) := by
  refine transposedAt_congr fun d => ⟨?_, ?_⟩
  · rintro ⟨t, ht, h1, h2⟩
    exact ⟨moved k t, (mem_partT.1 ht).1, touches_shift.2 h1, h2⟩
  · rintro ⟨u, hu, h1, h2⟩
    obtain ⟨v, hv, rfl⟩ := h.mem_of_touches hg hu hp h1
    exact ⟨v, hv, touches_shift.1 h1, h2⟩

theorem mem_earlier {ts : List Transposition} {t u : Transposition} :
    u ∈ earlier ts t ↔ u ∈ ts ∧ Earlier u t := by
  simp [earlier]

theorem earlier_part {ts : List Transposition} {n : ℕ} {t u : Transposition} :
    u ∈ earlier (partT k n ts) t ↔ u ∈ partT k n (earlier ts (moved k t)) := by
  rw [mem_earlier, mem_partT, mem_partT, mem_earlier, earlier_shift]
  tauto

theorem chosen (h : PartOf a b nT k a' b') {ts : List Transposition} (hc : Chosen a b nT ts) :
    Chosen a' b' nT (partT k a'.length ts) := by
  refine ⟨fun t ht => ?_, fun t ht => ?_⟩
  · obtain ⟨h1, h2⟩ := mem_partT.1 ht
    exact (h.genuine_iff t).2 ⟨hc.genuine _ h1, h2⟩
  · obtain ⟨hg, hn⟩ := (h.genuine_iff t).1 ht
    have hge : ∀ u ∈ earlier ts (moved k t), Genuine a b nT u :=
      fun u hu => hc.genuine u (mem_earlier.1 hu).1
    have hlt : ∀ p, Touches t p → p < a'.length := by
      rintro p (rfl | rfl)
      · exact ht.ordered.trans hn
      · exact hn
    have htr : ∀ p < a'.length, transposedAt (earlier (partT k a'.length ts) t) p =
        transposedAt (earlier ts (moved k t)) (p + k) := by
      intro p hp
      rw [← h.transposed hge hp]
      exact transposedAt_congr fun d => by simp only [earlier_part]
    rw [mem_partT, hc.rule _ hg]
    have hcol : (∀ u ∈ earlier ts (moved k t), ¬ Collide (moved k t) u) ↔
        ∀ u ∈ earlier (partT k a'.length ts) t, ¬ Collide t u := by
      constructor
      · rintro H u hu ⟨h1, p, h2, h3⟩
        have := (mem_partT.1 (earlier_part.1 hu)).1
        exact H _ this ⟨h1, p + k, touches_shift.2 h2, touches_shift.2 h3⟩
      · rintro H u hu ⟨h1, p, h2, h3⟩
        have hpk : ∃ q, p = q + k ∧ Touches t q := by
          rcases h2 with h2 | h2
          · exact ⟨t.start, h2.symm, .inl rfl⟩
          · exact ⟨t.stop, h2.symm, .inr rfl⟩
        obtain ⟨q, rfl, hq⟩ := hpk
        obtain ⟨v, hv, rfl⟩ := h.mem_of_touches hge hu (hlt q hq) h3
        exact H v (earlier_part.2 hv) ⟨h1, q, hq, touches_shift.1 h3⟩
    have hsub : Substitutable a b (earlier ts (moved k t)) (moved k t) ↔
        Substitutable a' b' (earlier (partT k a'.length ts) t) t := by
      rw [substitutable_iff, substitutable_iff, Blocked, Blocked]
      have l1 := hlt _ (.inl rfl : Touches t t.start)
      have l2 := hlt _ (.inr rfl : Touches t t.stop)
      simp only [leftover, h.onlyIn_left l1, h.onlyIn_right l1, h.onlyIn_left l2, h.onlyIn_right l2,
        htr _ l1, htr _ l2, moved]
    rw [hcol, hsub]
    simp only [hn, and_true]

theorem shared (h : PartOf a b nT k a' b') {rt : Runtime} (hs : SharedTypes rt a b) :
    SharedTypes rt a' b' := by
  intro p t ht
  by_cases hp : p < a'.length
  · refine hs (p + k) t ?_
    rwa [missedAt, h.onlyIn_left hp, h.onlyIn_right hp] at ht
  · have e1 : typesAt a' p = ∅ := by simp [typesAt, List.getElem?_eq_none (not_lt.1 hp)]
    have e2 : typesAt b' p = ∅ := by
      simp [typesAt, List.getElem?_eq_none (h.len ▸ not_lt.1 hp)]
    simp [missedAt, onlyIn, e1, e2] at ht

/-- What is left at a position of the part is what is left at the same position of the whole. -/
theorem leftovers (h : PartOf a b nT k a' b') {rt rt' : Runtime} (hl : a.length = b.length)
    (hs : SharedTypes rt a b) (hs' : SharedTypes rt' a' b') {p : ℕ} (hp : p < a'.length) :
    leftover a' b' (allT rt' a' b' nT) p = leftover a b (allT rt a b nT) (p + k) ∧
    leftover b' a' (allT rt' a' b' nT) p = leftover b a (allT rt a b nT) (p + k) := by
  have hc := allT_chosen hl hs nT
  have hm := (allT_chosen h.len hs' nT).mem_iff (h.chosen hc)
  have : transposedAt (allT rt' a' b' nT) p = transposedAt (allT rt a b nT) (p + k) := by
    rw [← h.transposed hc.genuine hp]
    exact transposedAt_congr fun d => by simp only [hm]
  rw [leftover, leftover, leftover, leftover, this, h.onlyIn_left hp, h.onlyIn_right hp]
  exact ⟨rfl, rfl⟩

theorem allT_mem (h : PartOf a b nT k a' b') {rt rt' : Runtime} (hl : a.length = b.length)
    (hs : SharedTypes rt a b) (hs' : SharedTypes rt' a' b') (t : Transposition) :
    t ∈ allT rt' a' b' nT ↔ moved k t ∈ allT rt a b nT ∧ t.stop < a'.length := by
  rw [(allT_chosen h.len hs' nT).mem_iff (h.chosen (allT_chosen hl hs nT)), mem_partT]

end PartOf

/-! ## Two parts with a gap -/

variable {a₁ a₂ b₁ b₂ g : BString} {nT : ℤ}

theorem typesAt_left {s₁ s : BString} {p : ℕ} (h : p < s₁.length) :
    typesAt (s₁ ++ s) p = typesAt s₁ p := by
  rw [typesAt, typesAt, List.getElem?_append_left h]

theorem typesAt_right {s₁ s : BString} (p : ℕ) :
    typesAt (s₁ ++ s) (p + s₁.length) = typesAt s p := by
  rw [typesAt, typesAt, List.getElem?_append_right (by omega)]
  congr 2
  omega

theorem missed_gap (h1 : a₁.length = b₁.length) {p : ℕ} (hp : a₁.length ≤ p)
    (hp' : p < a₁.length + g.length) :
    missedAt (a₁ ++ (g ++ a₂)) (b₁ ++ (g ++ b₂)) p = ∅ := by
  obtain ⟨q, rfl⟩ : ∃ q, p = q + a₁.length := ⟨p - a₁.length, by omega⟩
  have e1 := typesAt_right (s₁ := a₁) (s := g ++ a₂) q
  have e2 := typesAt_right (s₁ := b₁) (s := g ++ b₂) q
  rw [typesAt_left (s₁ := g) (by omega)] at e1 e2
  rw [← h1] at e2
  simp [missedAt, onlyIn, e1, e2]

theorem moves_missed {a b : BString} {t : Transposition} (h : Moves a b t) :
    missedAt a b t.start ≠ ∅ ∧ missedAt a b t.stop ≠ ∅ := by
  rcases h with ⟨h1, h2⟩ | ⟨h1, h2⟩
  · exact ⟨Finset.ne_empty_of_mem (Finset.mem_union_left _ h1),
      Finset.ne_empty_of_mem (Finset.mem_union_right _ h2)⟩
  · exact ⟨Finset.ne_empty_of_mem (Finset.mem_union_right _ h1),
      Finset.ne_empty_of_mem (Finset.mem_union_left _ h2)⟩

/-- Every transposition lies on one side of the gap. -/
theorem genuine_sides (h1 : a₁.length = b₁.length) (hg : nT ≤ g.length + 1) {t : Transposition}
    (ht : Genuine (a₁ ++ (g ++ a₂)) (b₁ ++ (g ++ b₂)) nT t) :
    t.stop < a₁.length ∨ a₁.length + g.length ≤ t.start := by
  obtain ⟨m1, m2⟩ := moves_missed ht.moves
  have c1 : ¬ (a₁.length ≤ t.start ∧ t.start < a₁.length + g.length) :=
    fun h => m1 (missed_gap h1 h.1 h.2)
  have c2 : ¬ (a₁.length ≤ t.stop ∧ t.stop < a₁.length + g.length) :=
    fun h => m2 (missed_gap h1 h.1 h.2)
  have := ht.span
  have := ht.ordered
  omega

theorem part_left (h1 : a₁.length = b₁.length) (hg : nT ≤ g.length + 1) :
    PartOf (a₁ ++ (g ++ a₂)) (b₁ ++ (g ++ b₂)) nT 0 a₁ b₁ where
  len := h1
  fits := by simp
  left p hp := (typesAt_left hp).symm
  right p hp := (typesAt_left (h1 ▸ hp)).symm
  inside t ht p hp htp := by
    have := genuine_sides h1 hg ht
    have := ht.ordered
    rcases htp with htp | htp <;> omega

theorem part_right (h1 : a₁.length = b₁.length) (h2 : a₂.length = b₂.length)
    (hg : nT ≤ g.length + 1) :
    PartOf (a₁ ++ (g ++ a₂)) (b₁ ++ (g ++ b₂)) nT (a₁.length + g.length) a₂ b₂ where
  len := h2
  fits := by simp; omega
  left p _ := by
    have := typesAt_right (s₁ := a₁ ++ g) (s := a₂) p
    rw [List.append_assoc, List.length_append] at this
    exact this.symm
  right p _ := by
    have := typesAt_right (s₁ := b₁ ++ g) (s := b₂) p
    rw [List.append_assoc, List.length_append, ← h1] at this
    exact this.symm
  inside t ht p hp htp := by
    have := genuine_sides h1 hg ht
    have := ht.ordered
    have := ht.inRange
    simp only [List.length_append] at this
    rcases htp with htp | htp <;> omega

theorem range_three (x y z : ℕ) : List.range (x + (y + z)) =
    List.range x ++ ((List.range y).map (· + x) ++ (List.range z).map (· + (x + y))) := by
  rw [List.range_add, List.range_add, List.map_append, List.map_map]
  congr 2
  · exact List.map_congr_left fun p _ => by omega
  · exact List.map_congr_left fun p _ => by simp only [Function.comp]; omega

theorem addsOf_perm' (rt rt' : Runtime) (i j : ℕ) (A B : Finset ℤ) :
    (addsOf rt i A B).Perm (addsOf rt' j A B) := by
  unfold addsOf
  refine List.Perm.append ?_ ?_ <;> refine List.Perm.map _ ?_ <;>
  exact (rt.order_perm _ _).trans (rt'.order_perm _ _).symm

theorem subsOf_perm' (rt rt' : Runtime) (i j : ℕ) (A B : Finset ℤ) :
    (subsOf rt i A B).Perm (subsOf rt' j A B) := by
  unfold subsOf
  refine List.Perm.map _ ((List.perm_ext_iff_of_nodup (rt.orderP_nodup _ _)
    (rt'.orderP_nodup _ _)).2 fun x => ?_)
  rw [rt.orderP_mem, rt'.orderP_mem]

/-- The edits of the whole are those of the parts. -/
theorem edits_join {rt rt₁ rt₂ : Runtime} (h1 : a₁.length = b₁.length) (h2 : a₂.length = b₂.length)
    (hg : nT ≤ g.length + 1) (hs : SharedTypes rt (a₁ ++ (g ++ a₂)) (b₁ ++ (g ++ b₂)))
    (hs₁ : SharedTypes rt₁ a₁ b₁) (hs₂ : SharedTypes rt₂ a₂ b₂) :
    (editsOf rt (a₁ ++ (g ++ a₂)) (b₁ ++ (g ++ b₂)) nT).transpositions.Perm
      ((editsOf rt₁ a₁ b₁ nT).transpositions ++
        (editsOf rt₂ a₂ b₂ nT).transpositions.map (moved (a₁.length + g.length))) ∧
    (editsOf rt (a₁ ++ (g ++ a₂)) (b₁ ++ (g ++ b₂)) nT).additions.Perm
      ((editsOf rt₁ a₁ b₁ nT).additions ++ (editsOf rt₂ a₂ b₂ nT).additions) ∧
    (editsOf rt (a₁ ++ (g ++ a₂)) (b₁ ++ (g ++ b₂)) nT).substitutions.Perm
      ((editsOf rt₁ a₁ b₁ nT).substitutions ++ (editsOf rt₂ a₂ b₂ nT).substitutions) := by
  have hl : (a₁ ++ (g ++ a₂)).length = (b₁ ++ (g ++ b₂)).length := by simp [h1, h2]
  have P := part_left (a₂ := a₂) (b₂ := b₂) h1 hg
  have Q := part_right h1 h2 hg
  have hlen : (a₁ ++ (g ++ a₂)).length = a₁.length + (g.length + a₂.length) := by simp
  refine ⟨?_, ?_, ?_⟩
  · have hn := disjoint_nodup (allT_disjoint (le_of_eq hl) hs nT)
    have hn₁ := disjoint_nodup (allT_disjoint (le_of_eq h1) hs₁ nT)
    have hn₂ := disjoint_nodup (allT_disjoint (le_of_eq h2) hs₂ nT)
    refine (List.perm_ext_iff_of_nodup hn ?_).2 fun t => ?_
    · refine List.Nodup.append hn₁ (hn₂.map (moved_injective _)) ?_
      intro t ht1 ht2
      obtain ⟨u, -, rfl⟩ := List.mem_map.1 ht2
      have := ((P.allT_mem hl hs hs₁ _).1 ht1).2
      simp only [moved] at this
      omega
    · simp only [editsOf, List.mem_append, List.mem_map, P.allT_mem hl hs hs₁,
        Q.allT_mem hl hs hs₂]
      constructor
      · intro ht
        have hgt := allT_genuine rt _ _ nT t ht
        rcases genuine_sides h1 hg hgt with h | h
        · exact .inl ⟨ht, h⟩
        · right
          have ho := hgt.ordered
          have hr := hgt.inRange
          rw [hlen] at hr
          have he : moved (a₁.length + g.length)
              ⟨t.start - (a₁.length + g.length), t.stop - (a₁.length + g.length), t.type⟩ = t := by
            obtain ⟨i, j, d⟩ := t
            simp only [moved, Transposition.mk.injEq] at h ho ⊢
            exact ⟨by omega, by omega, trivial⟩
          exact ⟨_, ⟨he.symm ▸ ht, by simp only; omega⟩, he⟩
      · rintro (⟨h, -⟩ | ⟨u, ⟨h, -⟩, rfl⟩)
        · exact h
        · exact h
  · simp only [editsOf]
    rw [hlen, range_three, List.flatMap_append, List.flatMap_append, List.flatMap_map,
      List.flatMap_map]
    refine List.Perm.append ?_ ?_
    · refine flatMap_perm _ fun p hp => ?_
      obtain ⟨l1, l2⟩ := P.leftovers hl hs hs₁ (List.mem_range.1 hp)
      rw [l1, l2]
      exact addsOf_perm' _ _ _ _ _ _
    · rw [List.flatMap_eq_nil_iff.2, List.nil_append]
      · refine flatMap_perm _ fun p hp => ?_
        obtain ⟨l1, l2⟩ := Q.leftovers hl hs hs₂ (List.mem_range.1 hp)
        rw [l1, l2]
        exact addsOf_perm' _ _ _ _ _ _
      · intro p hp
        have := List.mem_range.1 hp
        obtain ⟨l1, l2⟩ := leftover_empty_of_missed (missed_gap (a₂ := a₂) (b₂ := b₂) (g := g) h1
          (show a₁.length ≤ p + a₁.length by omega) (by omega))
          (allT rt (a₁ ++ (g ++ a₂)) (b₁ ++ (g ++ b₂)) nT)
        rw [l1, l2, addsOf_empty]
  · simp only [editsOf]
    rw [hlen, range_three, List.flatMap_append, List.flatMap_append, List.flatMap_map,
      List.flatMap_map]
    refine List.Perm.append ?_ ?_
    · refine flatMap_perm _ fun p hp => ?_
      obtain ⟨l1, l2⟩ := P.leftovers hl hs hs₁ (List.mem_range.1 hp)
      rw [l1, l2]
      exact subsOf_perm' _ _ _ _ _ _
    · rw [List.flatMap_eq_nil_iff.2, List.nil_append]
      · refine flatMap_perm _ fun p hp => ?_
        obtain ⟨l1, l2⟩ := Q.leftovers hl hs hs₂ (List.mem_range.1 hp)
        rw [l1, l2]
        exact subsOf_perm' _ _ _ _ _ _
      · intro p hp
        have := List.mem_range.1 hp
        obtain ⟨l1, l2⟩ := leftover_empty_of_missed (missed_gap (a₂ := a₂) (b₂ := b₂) (g := g) h1
          (show a₁.length ≤ p + a₁.length by omega) (by omega))
          (allT rt (a₁ ++ (g ++ a₂)) (b₁ ++ (g ++ b₂)) nT)
        rw [l1, l2, subsOf_empty]

/-- The whole has edits exactly when the parts have. -/
theorem balanced_join {rt rt₁ rt₂ : Runtime} (h1 : a₁.length = b₁.length)
    (h2 : a₂.length = b₂.length)
    (hg : nT ≤ g.length + 1) (hs : SharedTypes rt (a₁ ++ (g ++ a₂)) (b₁ ++ (g ++ b₂)))
    (hs₁ : SharedTypes rt₁ a₁ b₁) (hs₂ : SharedTypes rt₂ a₂ b₂) :
    (∀ p < (a₁ ++ (g ++ a₂)).length, Balanced (a₁ ++ (g ++ a₂)) (b₁ ++ (g ++ b₂))
      (allT rt (a₁ ++ (g ++ a₂)) (b₁ ++ (g ++ b₂)) nT) p) ↔
    (∀ p < a₁.length, Balanced a₁ b₁ (allT rt₁ a₁ b₁ nT) p) ∧
    ∀ p < a₂.length, Balanced a₂ b₂ (allT rt₂ a₂ b₂ nT) p := by
  have hl : (a₁ ++ (g ++ a₂)).length = (b₁ ++ (g ++ b₂)).length := by simp [h1, h2]
  have P := part_left (a₂ := a₂) (b₂ := b₂) h1 hg
  have Q := part_right h1 h2 hg
  have hlen : (a₁ ++ (g ++ a₂)).length = a₁.length + (g.length + a₂.length) := by simp
  constructor
  · intro H
    refine ⟨fun p hp => ?_, fun p hp => ?_⟩
    · obtain ⟨l1, l2⟩ := P.leftovers hl hs hs₁ hp
      have := H p (by omega)
      rw [Balanced] at this ⊢
      rw [l1, l2]; exact this
    · obtain ⟨l1, l2⟩ := Q.leftovers hl hs hs₂ hp
      have := H (p + (a₁.length + g.length)) (by omega)
      rw [Balanced] at this ⊢
      rw [l1, l2]; exact this
  · rintro ⟨H1, H2⟩ p hp
    by_cases c1 : p < a₁.length
    · obtain ⟨l1, l2⟩ := P.leftovers hl hs hs₁ c1
      have := H1 p c1
      rw [Balanced, l1, l2] at this
      exact this
    · by_cases c2 : p < a₁.length + g.length
      · obtain ⟨l1, l2⟩ := leftover_empty_of_missed (missed_gap (a₂ := a₂) (b₂ := b₂) (g := g) h1
          (by omega) c2) (allT rt (a₁ ++ (g ++ a₂)) (b₁ ++ (g ++ b₂)) nT)
        rw [Balanced, l1, l2]; simp
      · obtain ⟨q, rfl⟩ : ∃ q, p = q + (a₁.length + g.length) :=
          ⟨p - (a₁.length + g.length), by omega⟩
        obtain ⟨l1, l2⟩ := Q.leftovers hl hs hs₂ (p := q) (by omega)
        have := H2 q (by omega)
        rw [Balanced, l1, l2] at this
        exact this

/-! ## Correcting one position -/

section Correction

variable {a b a' : BString} {p : ℕ}

theorem Spec.Isolated.untouched (hi : Isolated a b nT p) {t : Transposition} (ht : Genuine a b nT t) :
    ¬ Touches t p := by
  obtain ⟨m1, m2⟩ := moves_missed ht.moves
  have h1 := ht.ordered
  have h2 := ht.span
  rintro (rfl | rfl)
  · exact m2 (hi _ (by omega) (by rw [abs_lt]; omega))
  · exact m1 (hi _ (by omega) (by rw [abs_lt]; omega))

theorem Spec.Corrected.missed_here (hc : Corrected a b p a') : missedAt a' b p = ∅ := by
  simp [missedAt, onlyIn, hc.here]

theorem Spec.Corrected.only (hc : Corrected a b p a') {q : ℕ} (hq : q ≠ p) :
    onlyIn a' b q = onlyIn a b q ∧ onlyIn b a' q = onlyIn b a q := by
  simp only [onlyIn, hc.elsewhere q hq, and_self]

theorem Spec.Corrected.missed (hc : Corrected a b p a') {q : ℕ} (hq : q ≠ p) :
    missedAt a' b q = missedAt a b q := by
  rw [missedAt, missedAt, (hc.only hq).1, (hc.only hq).2]

theorem Spec.Corrected.moves_iff (hc : Corrected a b p a') {t : Transposition} (ht : ¬ Touches t p) :
    Moves a' b t ↔ Moves a b t := by
  have h1 : t.start ≠ p := fun h => ht (.inl h)
  have h2 : t.stop ≠ p := fun h => ht (.inr h)
  rw [Moves, Moves, (hc.only h1).1, (hc.only h1).2, (hc.only h2).1, (hc.only h2).2]

theorem Spec.Corrected.genuine_iff (hc : Corrected a b p a') (hi : Isolated a b nT p)
    (t : Transposition) : Genuine a' b nT t ↔ Genuine a b nT t := by
  constructor
  · intro h
    have hu : ¬ Touches t p := by
      obtain ⟨m1, m2⟩ := moves_missed h.moves
      rintro (rfl | rfl)
      · exact m1 hc.missed_here
      · exact m2 hc.missed_here
    exact ⟨h.ordered, hc.length ▸ h.inRange, h.span, (hc.moves_iff hu).1 h.moves⟩
  · intro h
    exact ⟨h.ordered, hc.length.symm ▸ h.inRange, h.span,
      (hc.moves_iff (hi.untouched h)).2 h.moves⟩

theorem Spec.Corrected.chosen (hc : Corrected a b p a') (hi : Isolated a b nT p)
    {ts : List Transposition} (h : Chosen a b nT ts) : Chosen a' b nT ts := by
  refine ⟨fun t ht => (hc.genuine_iff hi t).2 (h.genuine t ht), fun t ht => ?_⟩
  have hg := (hc.genuine_iff hi t).1 ht
  rw [h.rule t hg, substitutable_iff, substitutable_iff, Blocked, Blocked]
  have hu := hi.untouched hg
  have h1 : t.start ≠ p := fun h => hu (.inl h)
  have h2 : t.stop ≠ p := fun h => hu (.inr h)
  simp only [leftover, (hc.only h1).1, (hc.only h1).2, (hc.only h2).1, (hc.only h2).2]

theorem Spec.Corrected.shared (hc : Corrected a b p a') {rt : Runtime} (hs : SharedTypes rt a b) :
    SharedTypes rt a' b := by
  intro q t ht
  by_cases hq : q = p
  · subst hq; rw [hc.missed_here] at ht; simp at ht
  · exact hs q t (hc.missed hq ▸ ht)

variable {rt rt' : Runtime}

theorem Spec.Corrected.mem_iff (hc : Corrected a b p a') (hi : Isolated a b nT p)
    (hl : a.length = b.length) (hs : SharedTypes rt a b) (hs' : SharedTypes rt' a' b)
    (t : Transposition) : t ∈ allT rt' a' b nT ↔ t ∈ allT rt a b nT :=
  (allT_chosen (hc.length.trans hl) hs' nT).mem_iff (hc.chosen hi (allT_chosen hl hs nT)) t

theorem Spec.Corrected.transpositions (hc : Corrected a b p a') (hi : Isolated a b nT p)
    (hl : a.length = b.length) (hs : SharedTypes rt a b) (hs' : SharedTypes rt' a' b) :
    (allT rt' a' b nT).Perm (allT rt a b nT) :=
  (List.perm_ext_iff_of_nodup
    (disjoint_nodup (allT_disjoint (le_of_eq (hc.length.trans hl)) hs' nT))
    (disjoint_nodup (allT_disjoint (le_of_eq hl) hs nT))).2 (hc.mem_iff hi hl hs hs')

theorem Spec.Corrected.leftovers (hc : Corrected a b p a') (hi : Isolated a b nT p)
    (hl : a.length = b.length) (hs : SharedTypes rt a b) (hs' : SharedTypes rt' a' b) {q : ℕ}
    (hq : q ≠ p) : leftover a' b (allT rt' a' b nT) q = leftover a b (allT rt a b nT) q ∧
    leftover b a' (allT rt' a' b nT) q = leftover b a (allT rt a b nT) q := by
  have := transposedAt_perm (hc.transpositions hi hl hs hs') q
  simp only [leftover, this, (hc.only hq).1, (hc.only hq).2, and_self]

theorem Spec.Isolated.leftover_here (hi : Isolated a b nT p) :
    leftover a b (allT rt a b nT) p = onlyIn a b p ∧
    leftover b a (allT rt a b nT) p = onlyIn b a p := by
  have : transposedAt (allT rt a b nT) p = ∅ := by
    ext d
    rw [mem_transposedAt]
    simp only [Finset.notMem_empty, iff_false, not_exists, not_and]
    intro t ht h1
    exact absurd h1 (hi.untouched (allT_genuine rt a b nT t ht))
  simp only [leftover, this, Finset.sdiff_empty, and_self]

theorem flatMap_split {β : Type _} {n p : ℕ} (hp : p < n) (f : ℕ → List β) :
    ((List.range n).flatMap f).Perm (((List.range n).erase p).flatMap f ++ f p) := by
  have h := List.perm_cons_erase (List.mem_range.2 hp)
  refine (List.Perm.flatMap_right f h).trans ?_
  rw [List.flatMap_cons]
  exact List.perm_append_comm

/-- Correcting an isolated position removes its edits and nothing else. -/
theorem Spec.Corrected.edits (hc : Corrected a b p a') (hi : Isolated a b nT p)
    (hl : a.length = b.length) (hp : p < a.length) (hs : SharedTypes rt a b)
    (hs' : SharedTypes rt' a' b) :
    (editsOf rt a b nT).transpositions.Perm (editsOf rt' a' b nT).transpositions ∧
    (editsOf rt a b nT).additions.Perm
      ((editsOf rt' a' b nT).additions ++ addsOf rt p (onlyIn a b p) (onlyIn b a p)) ∧
    (editsOf rt a b nT).substitutions.Perm
      ((editsOf rt' a' b nT).substitutions ++ subsOf rt p (onlyIn a b p) (onlyIn b a p)) := by
  have hh := hi.leftover_here (rt := rt)
  have he := leftover_empty_of_missed hc.missed_here (allT rt' a' b nT)
  refine ⟨(hc.transpositions hi hl hs hs').symm, ?_, ?_⟩
  · simp only [editsOf]
    refine (flatMap_split hp _).trans (List.Perm.append ?_ ?_)
    · refine List.Perm.trans ?_ (flatMap_split (hc.length.symm ▸ hp) _).symm
      simp only [he.1, he.2, addsOf_empty, List.append_nil]
      rw [hc.length]
      refine flatMap_perm _ fun q hq => ?_
      have hq' : q ≠ p := ((List.nodup_range).mem_erase_iff.1 hq).1
      obtain ⟨l1, l2⟩ := hc.leftovers hi hl hs hs' hq'
      rw [l1, l2]
      exact addsOf_perm' _ _ _ _ _ _
    · rw [hh.1, hh.2]
  · simp only [editsOf]
    refine (flatMap_split hp _).trans (List.Perm.append ?_ ?_)
    · refine List.Perm.trans ?_ (flatMap_split (hc.length.symm ▸ hp) _).symm
      simp only [he.1, he.2, subsOf_empty, List.append_nil]
      rw [hc.length]
      refine flatMap_perm _ fun q hq => ?_
      have hq' : q ≠ p := ((List.nodup_range).mem_erase_iff.1 hq).1
      obtain ⟨l1, l2⟩ := hc.leftovers hi hl hs hs' hq'
      rw [l1, l2]
      exact subsOf_perm' _ _ _ _ _ _
    · rw [hh.1, hh.2]

theorem Spec.Corrected.matchCount (hc : Corrected a b p a') (hp : p < a.length) :
    matchCount a' b = matchCount a b + (onlyIn b a p).card := by
  unfold Spec.matchCount
  rw [hc.length, ← Finset.add_sum_erase _ _ (Finset.mem_range.2 hp),
    ← Finset.add_sum_erase (a := p) _ (fun q => (typesAt a q ∩ typesAt b q).card)
      (Finset.mem_range.2 hp)]
  have h1 : ∑ q ∈ (Finset.range a.length).erase p, (typesAt a' q ∩ typesAt b q).card =
      ∑ q ∈ (Finset.range a.length).erase p, (typesAt a q ∩ typesAt b q).card :=
    Finset.sum_congr rfl fun q hq => by rw [hc.elsewhere q (Finset.ne_of_mem_erase hq)]
  have h2 : (typesAt a' p ∩ typesAt b p).card =
      (typesAt a p ∩ typesAt b p).card + (onlyIn b a p).card := by
    rw [hc.here, Finset.inter_self, onlyIn, Finset.inter_comm]
    exact (Finset.card_inter_add_card_sdiff _ _).symm
  omega

end Correction

/-! ## Joined documents -/

theorem matchCount_join (h1 : a₁.length = b₁.length) :
    matchCount (a₁ ++ (g ++ a₂)) (b₁ ++ (g ++ b₂)) =
      matchCount a₁ b₁ + boundaryCount g + matchCount a₂ b₂ := by
  unfold matchCount boundaryCount
  have hlen : (a₁ ++ (g ++ a₂)).length = a₁.length + (g.length + a₂.length) := by simp
  rw [hlen, Finset.sum_range_add, Finset.sum_range_add, ← add_assoc]
  congr 1
  · congr 1
    · refine Finset.sum_congr rfl fun q hq => ?_
      have hq := Finset.mem_range.1 hq
      rw [typesAt_left hq, typesAt_left (h1 ▸ hq)]
    · refine Finset.sum_congr rfl fun q hq => ?_
      have hq := Finset.mem_range.1 hq
      have e1 := typesAt_right (s₁ := a₁) (s := g ++ a₂) q
      have e2 := typesAt_right (s₁ := b₁) (s := g ++ b₂) q
      rw [typesAt_left (s₁ := g) hq] at e1 e2
      rw [← h1] at e2
      rw [add_comm, e1, e2, Finset.inter_self]
  · refine Finset.sum_congr rfl fun q hq => ?_
    have e1 := typesAt_right (s₁ := a₁ ++ g) (s := a₂) q
    have e2 := typesAt_right (s₁ := b₁ ++ g) (s := b₂) q
    rw [List.append_assoc, List.length_append] at e1 e2
    rw [← h1] at e2
    rw [show a₁.length + (g.length + q) = q + (a₁.length + g.length) by omega, e1, e2]

end SegEval
