import Verif.Lemmas.Framed
import Verif.Props.Locality

/-!
# C117: documents that begin and end alike
-/

namespace SegEval.Props

open SegEval Spec

theorem cost_framed {rt : Runtime} {g g' a b : BString} {nT : ℤ} (hl : a.length = b.length)
    (hs : SharedTypes rt (framed g g' a) (framed g g' b)) (mx mn : ℤ) :
    scriptCost nT mx mn (editsOf rt (framed g g' a) (framed g g' b) nT) =
      scriptCost nT mx mn (editsOf rt a b nT) ∧
    editCount (editsOf rt (framed g g' a) (framed g g' b) nT) = editCount (editsOf rt a b nT) := by
  obtain ⟨p1, p2, p3⟩ := edits_framed (nT := nT) hl hs ((part_framed (nT := nT) hl).shared hs)
  constructor
  · rw [scriptCost, scriptCost, (p1.map _).sum_eq, p2.length_eq, (p3.map _).sum_eq, sum_map_moved]
  · rw [editCount, editCount, p1.length_eq, p2.length_eq, p3.length_eq, List.length_map]

/-- C117: where both strings begin alike and end alike, there are no edits, and the other edits are
those found without the beginning and the end, for every `n_t`. -/
theorem C117_edits (rt rt' : Runtime) (g g' a b : BString) (hl : a.length = b.length) (nT : ℤ)
    (hs : SharedTypes rt (framed g g' a) (framed g g' b)) (hs' : SharedTypes rt' a b) :
    ((∃ e, boundaryEditDistance rt (framed g g' a) (framed g g' b) nT = .ok e) ↔
      ∃ e', boundaryEditDistance rt' a b nT = .ok e') ∧
    ∀ e e', boundaryEditDistance rt (framed g g' a) (framed g g' b) nT = .ok e →
      boundaryEditDistance rt' a b nT = .ok e' →
      e.transpositions.Perm (e'.transpositions.map (moved g.length)) ∧
      e.additions.Perm e'.additions ∧ e.substitutions.Perm e'.substitutions := by
  have hL : (framed g g' a).length = (framed g g' b).length := by simp [framed_length, hl]
  constructor
  · simp only [bed_iff _ (le_of_eq hL), bed_iff _ (le_of_eq hl), exists_and_left, exists_eq, and_true]
    exact balanced_framed hl hs hs'
  · intro e e' h h'
    rw [bed_edits (le_of_eq hL) h, bed_edits (le_of_eq hl) h']
    exact edits_framed hl hs hs'

/-- C117: agreeing beginnings and ends never lower boundary similarity.  Without boundaries in them
they do not change it; with a boundary in them, and no further types, they raise it unless it was 1. -/
theorem C117_boundary (rt : Runtime) (kw : SimKw) (hw : kw.weight = .default)
    (hr : kw.returnParts = false) (ho : kw.oneMinus = false) (a b a' b' : Seg)
    (g g' sa sb : BString) (ha : Denotes kw.boundaryFormat a sa) (hb : Denotes kw.boundaryFormat b sb)
    (ha' : Denotes kw.boundaryFormat a' (framed g g' sa))
    (hb' : Denotes kw.boundaryFormat b' (framed g g' sb))
    (hs : SharedTypes rt sa sb) (x x' : ℚ) (h : Returns (boundarySimilarity rt kw a b) x)
    (h' : Returns (boundarySimilarity rt kw a' b') x') :
    x ≤ x' ∧ (boundaryCount g + boundaryCount g' = 0 → x' = x) ∧
    (SameTypes sa sb (framed g g' sa) (framed g g' sb) →
      (x' = x ↔ x = 1 ∨ boundaryCount g + boundaryCount g' = 0)) := by
  obtain ⟨hl, u, -, hp, hx⟩ := boundary_value hw hr ho ha hb h
  obtain ⟨-, u', -, -, hx'⟩ := boundary_value hw hr ho ha' hb' h'
  have hs' := sharedTypes_framed (g := g) (g' := g') hl hs
  obtain ⟨mx, mn, hm⟩ := extremes_exist u
  obtain ⟨mx', mn', hm'⟩ := extremes_exist u'
  obtain ⟨c, d⟩ := cost_framed (nT := kw.nT) hl hs' mx' mn'
  have e := hx _ _ hm
  have e' := hx' _ _ hm'
  rw [scriptCredit_eq] at e e'
  rw [c, d, matchCount_framed hl] at e'
  have k := PartOf.cost (part_framed (g := g) (g' := g') (nT := kw.nT) hl) hm' hm (editsOf rt sa sb kw.nT)
  have q : (0 : ℚ) < editCount (editsOf rt sa sb kw.nT) + matchCount sa sb := by exact_mod_cast hp
  have r := C17_range rt kw hw a b x h
  have same : SameTypes sa sb (framed g g' sa) (framed g g' sb) →
      scriptCost kw.nT mx' mn' (editsOf rt sa sb kw.nT) = scriptCost kw.nT mx mn (editsOf rt sa sb kw.nT) := by
    intro hst
    have m2 := hm.same hst
    have : mx' = mx := le_antisymm (m2.le_max _ hm'.usedMax) (hm'.le_max _ m2.usedMax)
    have : mn' = mn := le_antisymm (hm'.min_le _ m2.usedMin) (m2.min_le _ hm'.usedMin)
    subst mx' mn'; rfl
  have none : boundaryCount g + boundaryCount g' = 0 →
      SameTypes sa sb (framed g g' sa) (framed g g' sb) := by
    intro h0
    have z : ∀ {s : BString}, boundaryCount s = 0 → ∀ p, typesAt s p = ∅ := by
      intro s h p
      by_cases hp : p < s.length
      · exact Finset.card_eq_zero.1 (Finset.sum_eq_zero_iff.1 h p (Finset.mem_range.2 hp))
      · exact typesAt_beyond (by omega)
    exact sameTypes_framed hl (z (by omega)) (z (by omega))
  push_cast at e e'
  generalize scriptCost kw.nT mx' mn' (editsOf rt sa sb kw.nT) = C' at *
  generalize scriptCost kw.nT mx mn (editsOf rt sa sb kw.nT) = C at *
  generalize hD : (editCount (editsOf rt sa sb kw.nT) + matchCount sa sb : ℚ) = D at *
  have hG : (0 : ℚ) ≤ (boundaryCount g + boundaryCount g' : ℕ) := by positivity
  have e1 : x' = (D + (boundaryCount g + boundaryCount g' : ℕ) - C') /
      (D + (boundaryCount g + boundaryCount g' : ℕ)) := by
    rw [e', ← hD]; push_cast
    congr 1 <;> ring
  have iff0 : ((boundaryCount g + boundaryCount g' : ℕ) : ℚ) = 0 ↔
      boundaryCount g + boundaryCount g' = 0 := Nat.cast_eq_zero
  generalize ((boundaryCount g + boundaryCount g' : ℕ) : ℚ) = G at *
  have e0 : x * D = D - C := by rw [e, div_mul_cancel₀ _ q.ne']
  have e1' : x' * (D + G) = D + G - C' := by rw [e1, div_mul_cancel₀ _ (by linarith)]
  have eq1 : SameTypes sa sb (framed g g' sa) (framed g g' sb) → (x' - x) * (D + G) = (1 - x) * G := by
    intro hst; have := same hst; subst this; linarith
  refine ⟨?_, ?_, ?_⟩
  · have : 0 ≤ (x' - x) * (D + G) := by
      have := mul_nonneg (sub_nonneg.2 r.2) hG
      nlinarith
    have := nonneg_of_mul_nonneg_left this (by linarith)
    linarith
  · intro h0
    have z := eq1 (none h0)
    rw [iff0.2 h0, mul_zero, add_zero] at z
    rcases mul_eq_zero.1 z with z | z <;> linarith
  · intro hst
    have z := eq1 hst
    rw [← iff0]
    constructor
    · intro hx; rw [hx, sub_self, zero_mul] at z
      rcases mul_eq_zero.1 z.symm with z | z
      · left; linarith
      · exact .inr z
    · intro hx
      have : (x' - x) * (D + G) = 0 := by
        rw [z]; rcases hx with hx | hx <;> simp [hx]
      rcases mul_eq_zero.1 this with z | z <;> linarith

/-- C117: the same for segmentation similarity, which any agreeing beginning or end brings closer to 1:
without further types what lacks to 1 is shared out over the longer document. -/
theorem C117_segmentation (rt : Runtime) (kw : SimKw) (hw : kw.weight = .default)
    (hr : kw.returnParts = false) (ho : kw.oneMinus = false) (a b a' b' : Seg)
    (g g' sa sb : BString) (ha : Denotes kw.boundaryFormat a sa) (hb : Denotes kw.boundaryFormat b sb)
    (ha' : Denotes kw.boundaryFormat a' (framed g g' sa))
    (hb' : Denotes kw.boundaryFormat b' (framed g g' sb))
    (hs : SharedTypes rt sa sb) (x x' : ℚ) (h : Returns (segmentationSimilarity rt kw a b) x)
    (h' : Returns (segmentationSimilarity rt kw a' b') x') :
    x ≤ x' ∧ (SameTypes sa sb (framed g g' sa) (framed g g' sb) →
      (1 - x') * (g.length + sa.length + g'.length) = (1 - x) * sa.length) := by
  obtain ⟨hl, u, -, hx⟩ := segmentation_value hw hr ho ha hb h
  obtain ⟨-, u', -, hx'⟩ := segmentation_value hw hr ho ha' hb' h'
  have hs' := sharedTypes_framed (g := g) (g' := g') hl hs
  obtain ⟨mx, mn, hm⟩ := extremes_exist u
  obtain ⟨mx', mn', hm'⟩ := extremes_exist u'
  obtain ⟨c, -⟩ := cost_framed (nT := kw.nT) hl hs' mx' mn'
  have e := hx _ _ hm
  have e' := hx' _ _ hm'
  rw [c, framed_length] at e'
  have P := part_framed (g := g) (g' := g') (nT := kw.nT) hl
  have k := PartOf.cost P hm' hm (editsOf rt sa sb kw.nT)
  have r := C20_range rt kw hw a b sa sb ha hb hs x h
  have n1 : 0 < sa.length := length_of_types hl u
  have p1 : 0 < (identifyTypes sa sb).card := Finset.card_pos.2 (u.imp fun _ => mem_identifyTypes.2)
  have s1 : (identifyTypes sa sb).card ≤ (identifyTypes (framed g g' sa) (framed g g' sb)).card :=
    Finset.card_le_card fun t ht => mem_identifyTypes.2 (PartOf.uses P (mem_identifyTypes.1 ht))
  have same : SameTypes sa sb (framed g g' sa) (framed g g' sb) →
      scriptCost kw.nT mx' mn' (editsOf rt sa sb kw.nT) = scriptCost kw.nT mx mn (editsOf rt sa sb kw.nT) ∧
      identifyTypes (framed g g' sa) (framed g g' sb) = identifyTypes sa sb := by
    intro hst
    have m2 := hm.same hst
    have : mx' = mx := le_antisymm (m2.le_max _ hm'.usedMax) (hm'.le_max _ m2.usedMax)
    have : mn' = mn := le_antisymm (hm'.min_le _ m2.usedMin) (m2.min_le _ hm'.usedMin)
    subst mx' mn'
    exact ⟨rfl, by ext t; rw [mem_identifyTypes, mem_identifyTypes]; exact (hst t).symm⟩
  have cards : SameTypes sa sb (framed g g' sa) (framed g g' sb) →
      (identifyTypes (framed g g' sa) (framed g g' sb)).card = (identifyTypes sa sb).card :=
    fun hst => by rw [(same hst).2]
  have costs := fun hst => (same hst).1
  clear same
  generalize scriptCost kw.nT mx' mn' (editsOf rt sa sb kw.nT) = C' at *
  generalize scriptCost kw.nT mx mn (editsOf rt sa sb kw.nT) = C at *
  generalize (identifyTypes (framed g g' sa) (framed g g' sb)).card = t' at *
  generalize (identifyTypes sa sb).card = t at *
  have ht : (0 : ℚ) < t := by exact_mod_cast p1
  have ht' : (t : ℚ) ≤ t' := by exact_mod_cast s1
  have hn : (0 : ℚ) < sa.length := by exact_mod_cast n1
  have hg : (0 : ℚ) ≤ g.length := by positivity
  have hg' : (0 : ℚ) ≤ g'.length := by positivity
  have f : (1 - x) * (sa.length * t * t) = C := by
    rw [e, sub_sub_cancel, div_mul_cancel₀ _ (by positivity)]
  push_cast at e'
  have hpos : (0 : ℚ) < (g.length + (sa.length + g'.length)) * t' * t' := by
    have : (0 : ℚ) < t' := ht.trans_le ht'
    positivity
  have f' : (1 - x') * ((g.length + (sa.length + g'.length)) * t' * t') = C' := by
    rw [e', sub_sub_cancel, div_mul_cancel₀ _ hpos.ne']
  constructor
  · by_contra hc
    push Not at hc
    have h1 : (1 - x) * (sa.length * t * t) ≤ (1 - x) * ((g.length + (sa.length + g'.length)) * t' * t') := by
      refine mul_le_mul_of_nonneg_left ?_ (by linarith [r.2])
      have : (sa.length : ℚ) ≤ g.length + (sa.length + g'.length) := by linarith
      gcongr
    have h2 := mul_lt_mul_of_pos_right (show 1 - x < 1 - x' by linarith) hpos
    linarith
  · intro hst
    have hc := cards hst
    subst hc
    have := costs hst
    subst this
    have : (1 - x') * (g.length + sa.length + g'.length) * (t' * t') = (1 - x) * sa.length * (t' * t') := by
      linarith
    exact mul_right_cancel₀ (by positivity) this

/-- A longer first segment is a stretch without boundaries before. -/
theorem massPat_longer_first (k : ℕ) {m : ℤ} (hm : 0 < m) (l : List ℤ) :
    massPat ((m + k) :: l) = List.replicate k false ++ massPat (m :: l) := by
  have e : (m + k - 1).toNat = k + (m - 1).toNat := by omega
  cases l with
  | nil => rw [massPat, massPat, e, List.replicate_add]
  | cons n l =>
    rw [massPat_cons _ (n :: l) (by simp), massPat_cons m (n :: l) (by simp), e, List.replicate_add,
      List.append_assoc]

/-- A longer last segment is one after. -/
theorem massPat_longer_last (k : ℕ) {m : ℤ} (hm : 0 < m) (l : List ℤ) :
    massPat (l ++ [m + k]) = massPat (l ++ [m]) ++ List.replicate k false := by
  have e : (m + k - 1).toNat = (m - 1).toNat + k := by omega
  by_cases hl : l = []
  · subst hl
    rw [List.nil_append, List.nil_append, massPat, massPat, e, List.replicate_add]
  · rw [massPat_append _ _ hl (by simp), massPat_append _ _ hl (by simp), massPat, massPat, e,
      List.replicate_add]
    simp

/-- What masses with a longer first and a longer last segment denote. -/
theorem denotes_longer_first {t t' : Bool} {m m' : Obj} {l : List Obj} {s : BString} (k : ℕ)
    (hm : m'.val = m.val + k) (h : Denotes .mass (.ints t (m :: l)) s) :
    Denotes .mass (.ints t' (m' :: l)) (framed (List.replicate k ∅) [] s) := by
  obtain ⟨p, h, rfl⟩ := h
  refine ⟨List.replicate k false ++ p, ?_, by simp [framed]⟩
  simp only [Means, massMeans_iff, List.map_cons, List.mem_cons] at h ⊢
  obtain ⟨-, a2, rfl⟩ := h
  have h0 := a2 _ (.inl rfl)
  refine ⟨by simp, ?_, by rw [hm, massPat_longer_first k h0]⟩
  rintro x (rfl | hx)
  · omega
  · exact a2 x (.inr hx)

theorem denotes_longer_last {t t' : Bool} {m m' : Obj} {l : List Obj} {s : BString} (k : ℕ)
    (hm : m'.val = m.val + k) (h : Denotes .mass (.ints t (l ++ [m])) s) :
    Denotes .mass (.ints t' (l ++ [m'])) (framed [] (List.replicate k ∅) s) := by
  obtain ⟨p, h, rfl⟩ := h
  refine ⟨p ++ List.replicate k false, ?_, by simp [framed]⟩
  simp only [Means, massMeans_iff, List.map_append, List.map_cons, List.map_nil, List.mem_append,
    List.mem_singleton] at h ⊢
  obtain ⟨-, a2, rfl⟩ := h
  have h0 := a2 _ (.inr rfl)
  refine ⟨by simp, ?_, by rw [hm, massPat_longer_last k h0]⟩
  rintro x (hx | rfl)
  · exact a2 x (.inl hx)
  · omega

theorem blank_count (k : ℕ) : boundaryCount (List.replicate k ∅) = 0 := by
  unfold boundaryCount
  refine Finset.sum_eq_zero fun p _ => ?_
  rw [typesAt]
  by_cases h : p < k
  · simp [h]
  · simp [not_lt.1 h]

/-- C117: to make the first segments of both coders longer by `k` units, or the last ones, leaves
boundary similarity as it is and divides what lacks segmentation similarity to 1. -/
theorem C117_longer (rt : Runtime) (kw : SimKw) (hw : kw.weight = .default)
    (hr : kw.returnParts = false) (ho : kw.oneMinus = false) (hf : kw.boundaryFormat = .mass)
    (t t' : Bool) (m n m' n' : Obj) (k : ℕ) (hm : m'.val = m.val + k) (hn : n'.val = n.val + k)
    (l r : List Obj) (s s' : BString) (x x' : ℚ) :
    (Denotes .mass (.ints t (m :: l)) s → Denotes .mass (.ints t (n :: r)) s' →
      (Returns (boundarySimilarity rt kw (.ints t (m :: l)) (.ints t (n :: r))) x →
        Returns (boundarySimilarity rt kw (.ints t' (m' :: l)) (.ints t' (n' :: r))) x' → x' = x) ∧
      (Returns (segmentationSimilarity rt kw (.ints t (m :: l)) (.ints t (n :: r))) x →
        Returns (segmentationSimilarity rt kw (.ints t' (m' :: l)) (.ints t' (n' :: r))) x' →
        (1 - x') * (s.length + k) = (1 - x) * s.length)) ∧
    (Denotes .mass (.ints t (l ++ [m])) s → Denotes .mass (.ints t (r ++ [n])) s' →
      (Returns (boundarySimilarity rt kw (.ints t (l ++ [m])) (.ints t (r ++ [n]))) x →
        Returns (boundarySimilarity rt kw (.ints t' (l ++ [m'])) (.ints t' (r ++ [n']))) x' → x' = x) ∧
      (Returns (segmentationSimilarity rt kw (.ints t (l ++ [m])) (.ints t (r ++ [n]))) x →
        Returns (segmentationSimilarity rt kw (.ints t' (l ++ [m'])) (.ints t' (r ++ [n']))) x' →
        (1 - x') * (s.length + k) = (1 - x) * s.length)) := by
  have hne : kw.boundaryFormat ≠ .sets := by rw [hf]; decide
  have c0 : boundaryCount ([] : BString) = 0 := rfl
  have nb : ∀ p, typesAt ([] : BString) p = ∅ := fun p => typesAt_beyond (by simp)
  have nk : ∀ p, typesAt (List.replicate k ∅ : BString) p = ∅ := fun p => by
    by_cases h : p < k
    · simp [typesAt, h]
    · exact typesAt_beyond (by simpa using h)
  constructor
  · intro d d'
    have D := denotes_longer_first (t' := t') k hm d
    have D' := denotes_longer_first (t' := t') k hn d'
    rw [← hf] at d d' D D'
    have hs := denotes_shared rt d d' hne
    constructor
    · intro h h'
      exact (C117_boundary rt kw hw hr ho _ _ _ _ _ _ _ _ d d' D D' hs x x' h h').2.1
        (by rw [blank_count, c0])
    · intro h h'
      have := (C117_segmentation rt kw hw hr ho _ _ _ _ _ _ _ _ d d' D D' hs x x' h h').2
        (sameTypes_framed (segLen d d' h) nk nb)
      simpa [add_comm] using this
  · intro d d'
    have D := denotes_longer_last (t' := t') k hm d
    have D' := denotes_longer_last (t' := t') k hn d'
    rw [← hf] at d d' D D'
    have hs := denotes_shared rt d d' hne
    constructor
    · intro h h'
      exact (C117_boundary rt kw hw hr ho _ _ _ _ _ _ _ _ d d' D D' hs x x' h h').2.1
        (by rw [blank_count, c0])
    · intro h h'
      have := (C117_segmentation rt kw hw hr ho _ _ _ _ _ _ _ _ d d' D D' hs x x' h h').2
        (sameTypes_framed (segLen d d' h) nb nk)
      simpa using this

/-- C117: segments that both coders have at the beginning and at the end raise boundary similarity
unless it is 1, and never lower segmentation similarity. -/
theorem C117_segments (rt : Runtime) (kw : SimKw) (hw : kw.weight = .default)
    (hr : kw.returnParts = false) (ho : kw.oneMinus = false) (hf : kw.boundaryFormat = .mass)
    (t t' : Bool) (m n c d : List Obj) (sm sn sc sd : BString) (hm : Denotes .mass (.ints t m) sm)
    (hn : Denotes .mass (.ints t n) sn) (hc : Denotes .mass (.ints t c) sc)
    (hd : Denotes .mass (.ints t d) sd) (x x' : ℚ) :
    (Returns (boundarySimilarity rt kw (.ints t m) (.ints t n)) x →
      Returns (boundarySimilarity rt kw (.ints t' (c ++ (m ++ d))) (.ints t' (c ++ (n ++ d)))) x' →
      x ≤ x' ∧ (x' = x ↔ x = 1)) ∧
    (Returns (segmentationSimilarity rt kw (.ints t m) (.ints t n)) x →
      Returns (segmentationSimilarity rt kw (.ints t' (c ++ (m ++ d))) (.ints t' (c ++ (n ++ d)))) x' →
      (1 - x') * (sc.length + 1 + sm.length + (sd.length + 1)) = (1 - x) * sm.length) := by
  have hne : kw.boundaryFormat ≠ .sets := by rw [hf]; decide
  have fr : ∀ {l : List Obj} {s : BString}, Denotes .mass (.ints t l) s →
      Denotes .mass (.ints t' (c ++ (l ++ d))) (framed (sc ++ [{1}]) ([{1}] ++ sd) s) := by
    intro l s h
    have := denotes_append (t := t') hc (denotes_append (t := t') h hd)
    simpa [framed] using this
  have D := fr hm
  have D' := fr hn
  rw [← hf] at hm hn D D'
  have hs := denotes_shared rt hm hn hne
  have pos : boundaryCount (sc ++ [{1}]) + boundaryCount ([{1}] ++ sd) ≠ 0 := by
    have : boundaryCount ([{1}] ++ sd) ≠ 0 := by
      unfold boundaryCount
      rw [List.length_append, List.length_singleton, Nat.add_comm, Finset.sum_range_succ']
      simp [typesAt]
    omega
  have u : ∃ t, UsesType (framed (sc ++ [{1}]) ([{1}] ++ sd) sm) (framed (sc ++ [{1}]) ([{1}] ++ sd) sn) t :=
    ⟨1, sc.length, .inl (by simp [framed, typesAt])⟩
  constructor
  · intro h h'
    have z := C117_boundary rt kw hw hr ho _ _ _ _ _ _ _ _ hm hn D D' hs x x' h h'
    obtain ⟨-, v, -⟩ := boundary_value hw hr ho hm hn h
    refine ⟨z.1, ?_⟩
    rw [z.2.2 (sameTypes_of hne hm hn D D' v u)]
    exact ⟨fun h => h.resolve_right pos, .inl⟩
  · intro h h'
    have z := C117_segmentation rt kw hw hr ho _ _ _ _ _ _ _ _ hm hn D D' hs x x' h h'
    obtain ⟨-, v, -⟩ := segmentation_value hw hr ho hm hn h
    have := z.2 (sameTypes_of hne hm hn D D' v u)
    simp only [List.length_append, List.length_singleton] at this
    push_cast at this
    rw [add_comm (1 : ℚ)] at this
    exact this

/-- Longer first segments; a common segment before and after. -/
example : Returns (boundarySimilarity .ascending {} (massSeg [2, 3]) (massSeg [3, 2])) (1 / 2) ∧
    Returns (boundarySimilarity .ascending {} (massSeg [12, 3]) (massSeg [13, 2])) (1 / 2) ∧
    Returns (segmentationSimilarity .ascending {} (massSeg [2, 3]) (massSeg [3, 2])) (7 / 8) ∧
    Returns (segmentationSimilarity .ascending {} (massSeg [6, 3]) (massSeg [7, 2])) (15 / 16) ∧
    Returns (boundarySimilarity .ascending {} (massSeg [4, 2, 3, 1]) (massSeg [4, 3, 2, 1])) (5 / 6) :=
  ⟨⟨.dec (1 / 2), by decide +kernel, by norm_num [PyNum.val]⟩,
    ⟨.dec (1 / 2), by decide +kernel, by norm_num [PyNum.val]⟩,
    ⟨.dec (7 / 8), by decide +kernel, by norm_num [PyNum.val]⟩,
    ⟨.dec (15 / 16), by decide +kernel, by norm_num [PyNum.val]⟩,
    ⟨.dec (5 / 6), by decide +kernel, by norm_num [PyNum.val]⟩⟩

/-- Types that only the frame uses make substitutions cheaper, and so raise the similarity even when
the frame agrees nowhere else. -/
example : Returns (boundarySimilarity .ascending kwSets (.sets [{1}]) (.sets [{2}])) (1 / 2) ∧
    Returns (boundarySimilarity .ascending kwSets (.sets [{9}, {1}]) (.sets [{9}, {2}])) (17 / 18) :=
  ⟨⟨.dec (1 / 2), by decide +kernel, by norm_num [PyNum.val]⟩,
    ⟨.dec (17 / 18), by decide +kernel, by norm_num [PyNum.val]⟩⟩

end SegEval.Props
