import Verif.Spec.Relabel
import Verif.Lemmas.Greedy
import Verif.Lemmas.Swap

namespace SegEval

open Spec Props

/-! ## Renaming the boundary types -/

theorem keeps_injective {f : ℤ → ℤ} (h : KeepsDistances f) : Function.Injective f := by
  intro x y hxy
  have := h x y
  rw [hxy, sub_self, abs_zero] at this
  have := abs_eq_zero.1 this.symm
  omega

theorem relabel_length (f : ℤ → ℤ) (s : BString) : (relabel f s).length = s.length := by
  simp [relabel]

theorem typesAt_relabel (f : ℤ → ℤ) (s : BString) (p : ℕ) :
    typesAt (relabel f s) p = (typesAt s p).image f := by
  unfold typesAt relabel
  rw [List.getElem?_map]
  cases s[p]? <;> simp

theorem onlyIn_relabel {f : ℤ → ℤ} (hf : Function.Injective f) (a b : BString) (p : ℕ) :
    onlyIn (relabel f a) (relabel f b) p = (onlyIn a b p).image f := by
  rw [onlyIn, onlyIn, typesAt_relabel, typesAt_relabel, Finset.image_sdiff _ _ hf]

theorem missedAt_relabel {f : ℤ → ℤ} (hf : Function.Injective f) (a b : BString) (p : ℕ) :
    missedAt (relabel f a) (relabel f b) p = (missedAt a b p).image f := by
  rw [missedAt, missedAt, onlyIn_relabel hf, onlyIn_relabel hf, Finset.image_union]

theorem moves_relabel {f : ℤ → ℤ} (hf : Function.Injective f) {a b : BString} {t : Transposition} :
    Moves (relabel f a) (relabel f b) (retype f t) ↔ Moves a b t := by
  simp only [Moves, retype, onlyIn_relabel hf, Finset.mem_image, hf.eq_iff, exists_eq_right]

theorem genuine_relabel {f : ℤ → ℤ} (hf : Function.Injective f) {a b : BString} {nT : ℤ}
    {t : Transposition} :
    Genuine (relabel f a) (relabel f b) nT (retype f t) ↔ Genuine a b nT t := by
  constructor
  · rintro ⟨h1, h2, h3, h4⟩
    exact ⟨h1, by rwa [relabel_length] at h2, h3, (moves_relabel hf).1 h4⟩
  · rintro ⟨h1, h2, h3, h4⟩
    exact ⟨h1, by rwa [relabel_length], h3, (moves_relabel hf).2 h4⟩

theorem genuine_retyped {f : ℤ → ℤ} (hf : Function.Injective f) {a b : BString} {nT : ℤ}
    {t : Transposition} (h : Genuine (relabel f a) (relabel f b) nT t) : ∃ u, retype f u = t := by
  have hm : t.type ∈ missedAt (relabel f a) (relabel f b) t.start := moves_missed_start h.moves
  rw [missedAt_relabel hf, Finset.mem_image] at hm
  obtain ⟨d, _, hd⟩ := hm
  exact ⟨⟨t.start, t.stop, d⟩, by rw [retype]; simp only [hd]⟩

theorem retype_injective {f : ℤ → ℤ} (hf : Function.Injective f) :
    Function.Injective (retype f) := by
  rintro ⟨a, b, c⟩ ⟨d, e, g⟩ h
  simp only [retype, Transposition.mk.injEq] at h
  rw [h.1, h.2.1, hf h.2.2]

theorem earlier_retype (f : ℤ → ℤ) (ts : List Transposition) (t : Transposition) :
    earlier (ts.map (retype f)) (retype f t) = (earlier ts t).map (retype f) := by
  unfold earlier
  rw [List.filter_map]
  rfl

theorem collide_retype {f : ℤ → ℤ} (hf : Function.Injective f) {t u : Transposition} :
    Collide (retype f t) (retype f u) ↔ Collide t u := by
  unfold Collide
  simp only [retype, hf.eq_iff]
  rfl

theorem transposedAt_retype (f : ℤ → ℤ) (ts : List Transposition) (p : ℕ) :
    transposedAt (ts.map (retype f)) p = (transposedAt ts p).image f := by
  ext d
  rw [mem_transposedAt, Finset.mem_image]
  constructor
  · rintro ⟨u, hu, h1, h2⟩
    obtain ⟨t, ht, rfl⟩ := List.mem_map.1 hu
    exact ⟨t.type, mem_transposedAt.2 ⟨t, ht, h1, rfl⟩, h2⟩
  · rintro ⟨x, hx, rfl⟩
    obtain ⟨t, ht, h1, rfl⟩ := mem_transposedAt.1 hx
    exact ⟨retype f t, List.mem_map_of_mem ht, h1, rfl⟩

theorem leftover_relabel {f : ℤ → ℤ} (hf : Function.Injective f) (a b : BString)
    (ts : List Transposition) (p : ℕ) :
    leftover (relabel f a) (relabel f b) (ts.map (retype f)) p = (leftover a b ts p).image f := by
  rw [leftover, leftover, onlyIn_relabel hf, transposedAt_retype, Finset.image_sdiff _ _ hf]

theorem substitutable_relabel {f : ℤ → ℤ} (hf : Function.Injective f) {a b : BString}
    {ts : List Transposition} {t : Transposition} :
    Substitutable (relabel f a) (relabel f b) (ts.map (retype f)) (retype f t) ↔
      Substitutable a b ts t := by
  unfold Substitutable
  simp only [leftover_relabel hf, ne_eq, Finset.image_eq_empty]
  rfl

/-- The search finds the renamed transpositions. -/
theorem allT_relabel {rt rt' : Runtime} {f : ℤ → ℤ} (hf : Function.Injective f) {a b : BString}
    (hl : a.length = b.length) (hs : SharedTypes rt a b)
    (hs' : SharedTypes rt' (relabel f a) (relabel f b)) (nT : ℤ) :
    ((allT rt a b nT).map (retype f)).Perm (allT rt' (relabel f a) (relabel f b) nT) := by
  have hl' : (relabel f a).length ≤ (relabel f b).length := by
    rw [relabel_length, relabel_length, hl]
  have hg := allT_genuine rt a b nT
  refine (List.perm_ext_iff_of_nodup
    ((List.nodup_map_iff (retype_injective hf)).2 (disjoint_nodup (allT_disjoint (le_of_eq hl) hs nT)))
    (disjoint_nodup (allT_disjoint hl' hs' nT))).2 ?_
  refine greedy_unique (a := relabel f a) (b := relabel f b) (nT := nT) ?_
    (allT_genuine rt' _ _ nT) ?_ (fun t ht => allT_greedy hl' hs' ht)
  · intro t ht
    obtain ⟨u, hu, rfl⟩ := List.mem_map.1 ht
    exact (genuine_relabel hf).2 (hg u hu)
  · intro t ht
    obtain ⟨u, rfl⟩ := genuine_retyped hf ht
    rw [List.mem_map_of_injective (retype_injective hf),
      allT_greedy (le_of_eq hl) hs ((genuine_relabel hf).1 ht), earlier_retype,
      substitutable_relabel hf]
    refine and_congr_left (fun _ => ?_)
    constructor
    · intro h v hv
      obtain ⟨w, hw, rfl⟩ := List.mem_map.1 hv
      rw [collide_retype hf]; exact h w hw
    · intro h w hw hc
      exact h _ (List.mem_map_of_mem hw) ((collide_retype hf).2 hc)

theorem leftover_allT_relabel {rt rt' : Runtime} {f : ℤ → ℤ} (hf : Function.Injective f)
    {a b : BString} (hl : a.length = b.length) (hs : SharedTypes rt a b)
    (hs' : SharedTypes rt' (relabel f a) (relabel f b)) (nT : ℤ) (x y : BString) (p : ℕ) :
    leftover (relabel f x) (relabel f y) (allT rt' (relabel f a) (relabel f b) nT) p =
      (leftover x y (allT rt a b nT) p).image f := by
  rw [← leftover_relabel hf, leftover, leftover,
    transposedAt_perm (allT_relabel hf hl hs hs' nT)]

/-! ## What the metrics read off the edits -/

theorem pairing_relabel {f : ℤ → ℤ} (hf : Function.Injective f) {A B : Finset ℤ}
    {S : Finset (ℤ × ℤ)} (h : Pairing A B S) :
    Pairing (A.image f) (B.image f) (S.image (Prod.map f f)) := by
  have hff : Function.Injective (Prod.map f f) := hf.prodMap hf
  refine ⟨?_, ?_, ?_, ?_, ?_⟩
  · intro p hp
    obtain ⟨q, hq, rfl⟩ := Finset.mem_image.1 hp
    exact Finset.mem_image_of_mem f (h.left q hq)
  · intro p hp
    obtain ⟨q, hq, rfl⟩ := Finset.mem_image.1 hp
    exact Finset.mem_image_of_mem f (h.right q hq)
  · intro p hp q hq hpq
    obtain ⟨p', hp', rfl⟩ := Finset.mem_image.1 hp
    obtain ⟨q', hq', rfl⟩ := Finset.mem_image.1 hq
    rw [h.injLeft p' hp' q' hq' (hf hpq)]
  · intro p hp q hq hpq
    obtain ⟨p', hp', rfl⟩ := Finset.mem_image.1 hp
    obtain ⟨q', hq', rfl⟩ := Finset.mem_image.1 hq
    rw [h.injRight p' hp' q' hq' (hf hpq)]
  · rw [Finset.card_image_of_injective _ hff, Finset.card_image_of_injective _ hf,
      Finset.card_image_of_injective _ hf, h.full]

theorem distance_relabel {f : ℤ → ℤ} (hd : KeepsDistances f) (S : Finset (ℤ × ℤ)) :
    distance (S.image (Prod.map f f)) = distance S := by
  unfold distance
  rw [Finset.sum_image (fun x _ y _ h => ((keeps_injective hd).prodMap (keeps_injective hd)) h)]
  exact Finset.sum_congr rfl (fun p _ => hd p.1 p.2)

/-- A pairing of the renamed sets comes from one of the sets. -/
theorem pairing_unrelabel {f : ℤ → ℤ} (hd : KeepsDistances f) {A B : Finset ℤ}
    {S : Finset (ℤ × ℤ)} (h : Pairing (A.image f) (B.image f) S) :
    ∃ S', Pairing A B S' ∧ distance S' = distance S := by
  have hf := (keeps_injective hd)
  have hg : ∀ p ∈ S, f (Function.invFun f p.1) = p.1 ∧ f (Function.invFun f p.2) = p.2 := by
    intro p hp
    obtain ⟨x, _, hx⟩ := Finset.mem_image.1 (h.left p hp)
    obtain ⟨y, _, hy⟩ := Finset.mem_image.1 (h.right p hp)
    exact ⟨Function.invFun_eq ⟨x, hx⟩, Function.invFun_eq ⟨y, hy⟩⟩
  have hinj : Set.InjOn (Prod.map (Function.invFun f) (Function.invFun f)) (S : Set (ℤ × ℤ)) := by
    intro p hp q hq hpq
    have h1 := congrArg (Prod.map f f) hpq
    simp only [Prod.map] at h1
    rw [(hg p hp).1, (hg p hp).2, (hg q hq).1, (hg q hq).2] at h1
    exact h1
  refine ⟨S.image (Prod.map (Function.invFun f) (Function.invFun f)), ⟨?_, ?_, ?_, ?_, ?_⟩, ?_⟩
  · intro p hp
    obtain ⟨q, hq, rfl⟩ := Finset.mem_image.1 hp
    have := h.left q hq
    rw [← (hg q hq).1, Finset.mem_image] at this
    obtain ⟨x, hx, hxq⟩ := this
    simpa [Prod.map, ← hf hxq] using hx
  · intro p hp
    obtain ⟨q, hq, rfl⟩ := Finset.mem_image.1 hp
    have := h.right q hq
    rw [← (hg q hq).2, Finset.mem_image] at this
    obtain ⟨x, hx, hxq⟩ := this
    simpa [Prod.map, ← hf hxq] using hx
  · intro p hp q hq hpq
    obtain ⟨p', hp', rfl⟩ := Finset.mem_image.1 hp
    obtain ⟨q', hq', rfl⟩ := Finset.mem_image.1 hq
    have := congrArg f hpq
    simp only [Prod.map] at this
    rw [(hg p' hp').1, (hg q' hq').1] at this
    rw [h.injLeft p' hp' q' hq' this]
  · intro p hp q hq hpq
    obtain ⟨p', hp', rfl⟩ := Finset.mem_image.1 hp
    obtain ⟨q', hq', rfl⟩ := Finset.mem_image.1 hq
    have := congrArg f hpq
    simp only [Prod.map] at this
    rw [(hg p' hp').2, (hg q' hq').2] at this
    rw [h.injRight p' hp' q' hq' this]
  · rw [Finset.card_image_of_injOn hinj, h.full, Finset.card_image_of_injective _ hf,
      Finset.card_image_of_injective _ hf]
  · unfold distance
    rw [Finset.sum_image hinj]
    refine Finset.sum_congr rfl (fun p hp => ?_)
    simp only [Prod.map]
    rw [← hd, (hg p hp).1, (hg p hp).2]

theorem cheapest_relabel {f : ℤ → ℤ} (hd : KeepsDistances f) {A B : Finset ℤ}
    {S S' : Finset (ℤ × ℤ)} (h : Cheapest A B S) (h' : Cheapest (A.image f) (B.image f) S') :
    distance S = distance S' := by
  refine le_antisymm ?_ ?_
  · obtain ⟨S2, h2, h3⟩ := pairing_unrelabel hd h'.1
    rw [← h3]; exact h.2 S2 h2
  · rw [← distance_relabel hd S]
    exact h'.2 _ (pairing_relabel (keeps_injective hd) h.1)

/-- What the metrics read off the edits is the same under other names. -/
theorem edits_relabel {rt rt' : Runtime} {f : ℤ → ℤ} (hf : Function.Injective f) {a b : BString}
    (hl : a.length = b.length) (hs : SharedTypes rt a b)
    (hs' : SharedTypes rt' (relabel f a) (relabel f b)) (nT : ℤ) :
    let e := editsOf rt a b nT
    let e' := editsOf rt' (relabel f a) (relabel f b) nT
    e.additions.length = e'.additions.length ∧
    e.substitutions.length = e'.substitutions.length ∧
    (e.transpositions.map (retype f)).Perm e'.transpositions ∧
    (KeepsDistances f → (e.substitutions.map (fun s => |s.typeA - s.typeB|)).sum =
      (e'.substitutions.map (fun s => |s.typeA - s.typeB|)).sum) := by
  have hlo := leftover_allT_relabel (rt := rt) (rt' := rt') hf hl hs hs' nT
  refine ⟨?_, ?_, allT_relabel hf hl hs hs' nT, ?_⟩
  · simp only [editsOf, length_flatMap_range, addsOf_length, hlo, relabel_length,
      Finset.card_image_of_injective _ hf]
  · simp only [editsOf, length_flatMap_range, subsOf_length, hlo, relabel_length,
      Finset.card_image_of_injective _ hf]
  · intro hd
    simp only [editsOf, sum_flatMap_range, sum_subsOf, hlo, relabel_length]
    exact Finset.sum_congr rfl (fun p _ =>
      cheapest_relabel hd (bestPairs_cheapest _ _) (bestPairs_cheapest _ _))

theorem balanced_relabel {rt rt' : Runtime} {f : ℤ → ℤ} (hf : Function.Injective f) {a b : BString}
    (hl : a.length = b.length) (hs : SharedTypes rt a b)
    (hs' : SharedTypes rt' (relabel f a) (relabel f b)) (nT : ℤ) (p : ℕ) :
    Balanced (relabel f a) (relabel f b) (allT rt' (relabel f a) (relabel f b) nT) p ↔
      Balanced a b (allT rt a b nT) p := by
  have hlo := leftover_allT_relabel (rt := rt) (rt' := rt') hf hl hs hs' nT
  simp only [Balanced, hlo, Finset.card_image_of_injective _ hf]

theorem identifyTypes_relabel (f : ℤ → ℤ) (a b : BString) :
    identifyTypes (relabel f a) (relabel f b) = (identifyTypes a b).image f := by
  ext t
  rw [mem_identifyTypes, Finset.mem_image]
  simp only [mem_identifyTypes, UsesType, typesAt_relabel, Finset.mem_image]
  constructor
  · rintro ⟨p, ⟨x, hx, rfl⟩ | ⟨x, hx, rfl⟩⟩
    · exact ⟨x, ⟨p, .inl hx⟩, rfl⟩
    · exact ⟨x, ⟨p, .inr hx⟩, rfl⟩
  · rintro ⟨x, ⟨p, hx | hx⟩, rfl⟩
    · exact ⟨p, .inl ⟨x, hx, rfl⟩⟩
    · exact ⟨p, .inr ⟨x, hx, rfl⟩⟩

theorem matchCount_relabel {f : ℤ → ℤ} (hf : Function.Injective f) (a b : BString) :
    matchCount (relabel f a) (relabel f b) = matchCount a b := by
  unfold matchCount
  rw [relabel_length]
  refine Finset.sum_congr rfl (fun p _ => ?_)
  rw [typesAt_relabel, typesAt_relabel, ← Finset.image_inter _ _ hf,
    Finset.card_image_of_injective _ hf]

/-- The largest and the smallest type stay as far apart. -/
theorem spread_relabel {f : ℤ → ℤ} (hd : KeepsDistances f) {s : Finset ℤ} {mx mn mx' mn' : ℤ}
    (h1 : mx ∈ s) (h2 : ∀ x ∈ s, x ≤ mx) (h3 : mn ∈ s) (h4 : ∀ x ∈ s, mn ≤ x)
    (h1' : mx' ∈ s.image f) (h2' : ∀ x ∈ s.image f, x ≤ mx') (h3' : mn' ∈ s.image f)
    (h4' : ∀ x ∈ s.image f, mn' ≤ x) : mx' - mn' = mx - mn := by
  obtain ⟨x, hx, rfl⟩ := Finset.mem_image.1 h1'
  obtain ⟨y, hy, rfl⟩ := Finset.mem_image.1 h3'
  have e1 := hd x y
  have e2 := hd mx mn
  have a1 := h2' _ (Finset.mem_image_of_mem f h1)
  have a2 := h2' _ (Finset.mem_image_of_mem f h3)
  have a3 := h4' _ (Finset.mem_image_of_mem f h1)
  have a4 := h4' _ (Finset.mem_image_of_mem f h3)
  have b1 := h2 x hx
  have b2 := h2 y hy
  have b3 := h4 x hx
  have b4 := h4 y hy
  rw [abs_of_nonneg (by omega)] at e1
  rw [abs_of_nonneg (a := mx - mn) (by have := h2 mn h3; omega)] at e2
  have e3 : |x - y| ≤ mx - mn := abs_le.2 ⟨by omega, by omega⟩
  have e4 : mx - mn ≤ f x - f y := by rw [← e2]; exact abs_le.2 ⟨by omega, by omega⟩
  omega

theorem countEdits_relabel {w : Weights} (hw : Supplied w) (nT : ℤ) {f : ℤ → ℤ}
    (hd : KeepsDistances f ∨ w.s = weightS) (types : Finset ℤ) {e e' : Edits}
    (h1 : e.additions.length = e'.additions.length)
    (h2 : e.substitutions.length = e'.substitutions.length)
    (h3 : KeepsDistances f → (e.substitutions.map (fun s => |s.typeA - s.typeB|)).sum =
      (e'.substitutions.map (fun s => |s.typeA - s.typeB|)).sum)
    (h4 : (e.transpositions.map (retype f)).Perm e'.transpositions) :
    countEdits w nT types e = countEdits w nT (types.image f) e' := by
  by_cases ht : types = ∅
  · subst ht
    rw [Finset.image_empty]
    unfold countEdits
    rw [pyMax_empty, hw.1]
    simp only [weightA]
  · obtain ⟨mx, m1, m2, m3⟩ := pyMax_ok ht
    obtain ⟨mn, n1, n2, n3⟩ := pyMin_ok ht
    have ht' : types.image f ≠ ∅ := by rwa [ne_eq, Finset.image_eq_empty]
    obtain ⟨mx', m1', m2', m3'⟩ := pyMax_ok ht'
    obtain ⟨mn', n1', n2', n3'⟩ := pyMin_ok ht'
    obtain ⟨ha, hs, htr⟩ := hw
    have k1 : w.a e.additions = w.a e'.additions := by rw [ha, weightA, weightA, h1]
    have k2 : w.s e.substitutions mx mn = w.s e'.substitutions mx' mn' := by
      by_cases hc : w.s = weightS
      · rw [hc, weightS, weightS, h2]
      · have hd' : KeepsDistances f := hd.resolve_right hc
        have hsc := hs.resolve_left hc
        have hsp := spread_relabel hd' m2 m3 n2 n3 m2' m3' n2' n3'
        rw [hsc, weightSScale, weightSScale, scalePairs, scalePairs, spanSum_eq, spanSum_eq,
          List.map_map, List.map_map, hsp]
        have : ((fun p : ℤ × ℤ => |p.1 - p.2|) ∘ fun s : Substitution => (s.typeA, s.typeB)) =
          fun s => |s.typeA - s.typeB| := rfl
        rw [this, h3 hd']
    have k3 : w.t e.transpositions nT = w.t e'.transpositions nT := by
      rcases htr with htr | htr
      · rw [htr, weightT, weightT, ← h4.length_eq, List.length_map]
      · have hm : e.transpositions.map (fun t => ((t.start : ℤ), (t.stop : ℤ))) =
            (e.transpositions.map (retype f)).map (fun t => ((t.start : ℤ), (t.stop : ℤ))) := by
          rw [List.map_map]; rfl
        rw [htr, weightTScale, weightTScale, scalePairs, scalePairs, hm, spanSum_perm (h4.map _)]
    unfold countEdits
    rw [k1, k3, m1, n1, m1', n1']
    simp only
    rw [k2]

/-- Under other names the metrics see the same statistics. -/
theorem stats_relabel {rt rt' : Runtime} {w : Weights} (hw : Supplied w) {nT : ℤ} {f : ℤ → ℤ}
    (hf : Function.Injective f) (hd : KeepsDistances f ∨ w.s = weightS) {a b : BString}
    (hs : SharedTypes rt a b) (hs' : SharedTypes rt' (relabel f a) (relabel f b)) :
    SameStats (statisticsOfStrings rt w nT a b)
      (statisticsOfStrings rt' w nT (relabel f a) (relabel f b)) := by
  by_cases hl : a.length = b.length
  · have hl' : (relabel f a).length = (relabel f b).length := by
      rw [relabel_length, relabel_length, hl]
    have hbal := balanced_relabel (rt := rt) (rt' := rt') hf hl hs hs' nT
    rw [statisticsOfStrings, statisticsOfStrings, if_neg (by rw [not_not]; exact hl),
      if_neg (by rw [not_not]; exact hl')]
    by_cases hb : ∀ p < a.length, Balanced a b (allT rt a b nT) p
    · rw [bed_ok rt (le_of_eq hl) nT hb, bed_ok rt' (le_of_eq hl') nT (fun p hp =>
        (hbal p).2 (hb p (by rwa [relabel_length] at hp)))]
      obtain ⟨c1, c2, c3, c4⟩ := edits_relabel (rt := rt) (rt' := rt') hf hl hs hs' nT
      have hc := countEdits_relabel hw nT hd (identifyTypes a b) c1 c2 c4 c3
      simp only
      rw [identifyTypes_relabel, ← hc]
      cases h3 : countEdits w nT (identifyTypes a b) (editsOf rt a b nT) with
      | error e => exact .inl ⟨e, rfl, rfl⟩
      | ok c =>
        refine .inr ⟨_, _, rfl, rfl, ⟨rfl, ?_, ?_, ?_, ?_⟩⟩
        · have := c3.length_eq
          rw [List.length_map] at this
          simp only [editCount, c1, c2, this]
        · simp only
          rw [matches_length rt hl, matches_length rt' hl', matchCount_relabel hf]
        · simp only [relabel_length, Finset.card_image_of_injective _ hf]
        · simp only [Finset.card_image_of_injective _ hf]
    · rw [bed_error rt (le_of_eq hl) nT hb, bed_error rt' (le_of_eq hl') nT (fun h => hb
        (fun p hp => (hbal p).1 (h p (by rwa [relabel_length]))))]
      exact .inl ⟨_, rfl, rfl⟩
  · left
    refine ⟨.segmentationMetricError, ?_, ?_⟩
    · rw [statisticsOfStrings, if_pos hl]
    · rw [statisticsOfStrings, if_pos (by rwa [relabel_length, relabel_length])]

end SegEval
