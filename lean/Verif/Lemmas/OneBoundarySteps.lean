import Verif.Lemmas.OneBoundary
import Verif.Props.Locality

/-!
# From one boundary to several

The edits and matches of a comparison are at least the boundaries of either string, and two strings
with boundaries of one type are joined by steps of one boundary each.
-/

namespace SegEval

open Spec

theorem boundaries_card (s : BString) : (boundaries s).card = boundaryCount s := by
  rw [boundaryCount]
  refine card_by_position (n := s.length) (boundaries s) (fun p => typesAt s p) (fun p t => ?_)
  rw [mem_boundaries]
  exact ⟨fun h => ⟨typesAt_lt h, h⟩, fun h => h.2⟩

theorem sum_countP_le {α : Type*} (l : List α) (f : α → ℤ) (U : Finset ℤ) :
    ∑ d ∈ U, l.countP (fun x => decide (f x = d)) ≤ l.length := by
  induction l with
  | nil => simp
  | cons x l ih =>
    simp only [List.countP_cons, List.length_cons]
    rw [Finset.sum_add_distrib]
    have : ∑ d ∈ U, (if decide (f x = d) = true then 1 else 0) ≤ 1 := by
      simp only [decide_eq_true_eq]
      rw [Finset.sum_ite_eq]
      split <;> simp
    omega

theorem sum_additions_le (l : List Addition) (s : Side) (U : Finset ℤ) :
    ∑ d ∈ U, l.countP (fun x => decide (x = ⟨d, s⟩)) ≤ l.length := by
  refine le_trans (Finset.sum_le_sum fun d _ => List.countP_mono_left (q := fun x : Addition => decide (x.type = d))
    fun x _ hx => ?_) (sum_countP_le l Addition.type U)
  simp only [decide_eq_true_eq] at hx ⊢
  rw [hx]

theorem sdiff_card_le (a b : BString) (U : Finset ℤ)
    (hU : ∀ x ∈ boundaries a \ boundaries b, x.2 ∈ U) (n : ℕ) (hn : a.length ≤ n) :
    (boundaries a \ boundaries b).card ≤
      ∑ d ∈ U, ((Finset.range n).filter (fun p => d ∈ onlyIn a b p)).card := by
  refine le_trans (Finset.card_le_card (t := U.biUnion fun d =>
    ((Finset.range n).filter (fun p => d ∈ onlyIn a b p)).image (fun p => (p, d))) ?_)
    (Finset.card_biUnion_le.trans (Finset.sum_le_sum fun d _ => Finset.card_image_le))
  rintro ⟨p, d⟩ hx
  have hd := hU _ hx
  rw [Finset.mem_sdiff, mem_boundaries, mem_boundaries] at hx
  refine Finset.mem_biUnion.2 ⟨d, hd, Finset.mem_image.2 ⟨p, Finset.mem_filter.2
    ⟨Finset.mem_range.2 ((typesAt_lt hx.1).trans_le hn), ?_⟩, rfl⟩⟩
  rw [onlyIn, Finset.mem_sdiff]
  exact hx

/-- The edits and matches are at least the boundaries of either string. -/
theorem edits_ge {rt : Runtime} {a b : BString} (hl : a.length = b.length) (hs : SharedTypes rt a b)
    {nT : ℤ} {e : Edits} (he : boundaryEditDistance rt a b nT = .ok e) :
    boundaryCount a ≤ editCount e + matchCount a b ∧ boundaryCount b ≤ editCount e + matchCount a b := by
  set U : Finset ℤ := (boundaries a ∪ boundaries b).image Prod.snd
  have s1 := sum_countP_le e.transpositions Transposition.type U
  constructor
  · have h1 := sdiff_card_le a b U (fun x hx => Finset.mem_image.2
      ⟨x, Finset.mem_union_left _ (Finset.mem_sdiff.1 hx).1, rfl⟩) a.length le_rfl
    simp only [Props.C06_edits_account_a rt a b hl nT hs e he] at h1
    rw [Finset.sum_add_distrib, Finset.sum_add_distrib] at h1
    have s2 := sum_countP_le e.substitutions Substitution.typeA U
    have s3 := sum_additions_le e.additions .a U
    have h2 := Finset.card_sdiff_add_card_inter (boundaries a) (boundaries b)
    rw [boundaries_card, ← matches_card] at h2
    rw [editCount]; omega
  · have h1 := sdiff_card_le b a U (fun x hx => Finset.mem_image.2
      ⟨x, Finset.mem_union_right _ (Finset.mem_sdiff.1 hx).1, rfl⟩) a.length hl.symm.le
    simp only [Props.C06_edits_account_b rt a b hl nT hs e he] at h1
    rw [Finset.sum_add_distrib, Finset.sum_add_distrib] at h1
    have s2 := sum_countP_le e.substitutions Substitution.typeB U
    have s3 := sum_additions_le e.additions .b U
    have h2 := Finset.card_sdiff_add_card_inter (boundaries b) (boundaries a)
    rw [boundaries_card, Finset.inter_comm, ← matches_card] at h2
    rw [editCount]; omega

theorem cost_nonneg {rt : Runtime} {a b : BString} (hl : a.length = b.length) {n : ℤ} {e : Edits}
    (he : boundaryEditDistance rt a b n = .ok e) :
    transpositionCredit n e.transpositions ≤ editCount e := by
  have hg := Props.C07_transpositions_genuine rt a b hl n e he
  have : transpositionCredit n e.transpositions ≤ e.transpositions.length := by
    rw [transpositionCredit]
    generalize e.transpositions = l at hg
    induction l with
    | nil => simp
    | cons t l ih =>
      have h1 := ih fun t' h' => hg t' (List.mem_cons_of_mem _ h')
      have h2 : 0 ≤ transpositionCost n t := by
        have g := hg t (List.mem_cons_self ..)
        have hn := (genuine_credit g).1
        have hn' : (0 : ℚ) < n := by exact_mod_cast hn
        have g1 := g.ordered
        unfold transpositionCost
        have g2 : (t.start : ℚ) < t.stop := by exact_mod_cast g1
        exact div_nonneg (by linarith) hn'.le
      simp only [List.map_cons, List.sum_cons, List.length_cons]
      push_cast
      linarith
  refine this.trans ?_
  rw [editCount]
  push_cast
  have : (0 : ℚ) ≤ e.additions.length := by positivity
  have : (0 : ℚ) ≤ e.substitutions.length := by positivity
  linarith

/-- Boundary similarity of two strings without substitutions. -/
noncomputable def plainValue (rt : Runtime) (nT : ℤ) (a b : BString) : ℚ :=
  (matchCount a b + transpositionCredit nT (editsOf rt a b nT).transpositions) /
    (editCount (editsOf rt a b nT) + matchCount a b)

/-- The cost of the edits of two strings without substitutions. -/
noncomputable def plainCost (rt : Runtime) (nT : ℤ) (a b : BString) : ℚ :=
  editCount (editsOf rt a b nT) - transpositionCredit nT (editsOf rt a b nT).transpositions

section
variable {rt rt' : Runtime} {a a' b : BString} {p : ℕ} {t nT : ℤ}

theorem value_step (h : OneMore a a' p t) (hl : a.length = b.length) (hs : SharedTypes rt a b)
    (hs' : SharedTypes rt' a' b) (ho : OneSided a b) (ho' : OneSided a' b)
    (he : boundaryEditDistance rt a b nT = .ok (editsOf rt a b nT))
    (he' : boundaryEditDistance rt' a' b nT = .ok (editsOf rt' a' b nT))
    (hpos : 0 < editCount (editsOf rt a b nT) + matchCount a b) :
    |plainValue rt' nT a' b - plainValue rt nT a b| ≤
      1 / (editCount (editsOf rt a b nT) + matchCount a b : ℕ) := by
  obtain ⟨h1, h2, h3, h4, -⟩ := one_more h hl hs hs' ho ho' he he'
  have c0 := credit_nonneg hl he
  have c1 := cost_nonneg hl he
  have hm : (0 : ℚ) ≤ matchCount a b := by positivity
  have hpos' : (0 : ℚ) < editCount (editsOf rt a b nT) + matchCount a b := by exact_mod_cast hpos
  push_cast
  exact fraction_close hpos' (by linarith) (by linarith) h1 h2 (by exact_mod_cast h3)
    (by exact_mod_cast h4)

end

/-! ## Strings with one type -/

section
variable {t : ℤ}

/-- All boundaries are of the type `t`. -/
def Only (t : ℤ) (s : BString) : Prop := ∀ p, typesAt s p ⊆ {t}

theorem Only.cases {s : BString} (h : Only t s) (p : ℕ) : typesAt s p = ∅ ∨ typesAt s p = {t} :=
  Finset.subset_singleton_iff.1 (h p)

theorem only_missed {a b : BString} (ha : Only t a) (hb : Only t b) (p : ℕ) : missedAt a b p ⊆ {t} :=
  fun _ hu => by
    rw [missedAt, Finset.mem_union, onlyIn, onlyIn, Finset.mem_sdiff, Finset.mem_sdiff] at hu
    exact hu.elim (fun h => ha p h.1) (fun h => hb p h.1)

theorem only_shared {rt : Runtime} {a b : BString} (ha : Only t a) (hb : Only t b)
    (ht : smallInt t = true ∨ ∀ site, rt.sameObj site t = true) : SharedTypes rt a b := by
  intro p u hu
  rw [Finset.mem_singleton.1 (only_missed ha hb p hu)]
  exact ht

theorem only_edits {rt : Runtime} {a b : BString} (ha : Only t a) (hb : Only t b)
    (hl : a.length = b.length) (nT : ℤ) :
    boundaryEditDistance rt a b nT = .ok (editsOf rt a b nT) := by
  obtain ⟨e, he⟩ := Props.C09_total rt a b hl nT (fun p =>
    (Finset.card_le_card (only_missed ha hb p)).trans (by simp))
  rw [he, bed_edits (le_of_eq hl) he]

theorem typesAt_set {s : BString} {p : ℕ} (X : Finset ℤ) (hp : p < s.length) (q : ℕ) :
    typesAt (s.set p X) q = if q = p then X else typesAt s q := by
  unfold typesAt
  rw [List.getElem?_set]
  by_cases h : p = q
  · subst h; simp [hp]
  · simp [h, Ne.symm h]

/-- A string with one boundary put or removed as in another. -/
theorem toggle {a c : BString} (ha : Only t a) (hc : Only t c) (hl : a.length = c.length) {x : ℕ × ℤ}
    (hx : x ∈ symmDiff (boundaries a) (boundaries c)) :
    ∃ a₁ : BString, a₁.length = a.length ∧ Only t a₁ ∧
      (OneMore a a₁ x.1 t ∨ OneMore a₁ a x.1 t) ∧
      symmDiff (boundaries a) (boundaries c) = insert x (symmDiff (boundaries a₁) (boundaries c)) ∧
      x ∉ symmDiff (boundaries a₁) (boundaries c) := by
  obtain ⟨p, u⟩ := x
  rw [Finset.mem_symmDiff, mem_boundaries, mem_boundaries] at hx
  simp only at hx ⊢
  have hp : p < a.length := by
    rcases hx with h | h
    · exact typesAt_lt h.1
    · rw [hl]; exact typesAt_lt h.1
  have hu : u = t := by
    rcases hx with h | h
    · exact Finset.mem_singleton.1 (ha p h.1)
    · exact Finset.mem_singleton.1 (hc p h.1)
  subst hu
  have hset := typesAt_set (s := a) (typesAt c p) hp
  refine ⟨a.set p (typesAt c p), List.length_set .., fun q => ?_, ?_, ?_, ?_⟩
  · rw [hset]
    split
    · exact hc p
    · exact ha q
  · rcases hx with h | h
    · right
      have hc0 : typesAt c p = ∅ := (hc.cases p).resolve_right fun hh => h.2 (by simp [hh])
      have ha1 : typesAt a p = {u} := (ha.cases p).resolve_left fun hh => by simp [hh] at h
      refine ⟨(List.length_set ..).symm, by rw [List.length_set]; exact hp, ?_, ?_, ?_⟩
      · rw [hset, if_pos rfl, hc0]; simp
      · rw [hset, if_pos rfl, hc0, ha1]; rfl
      · intro q hq; rw [hset, if_neg hq]
    · left
      have hc1 : typesAt c p = {u} := (hc.cases p).resolve_left fun hh => by simp [hh] at h
      have ha0 : typesAt a p = ∅ := (ha.cases p).resolve_right fun hh => h.2 (by simp [hh])
      refine ⟨List.length_set .., hp, ?_, ?_, ?_⟩
      · rw [ha0]; simp
      · rw [hset, if_pos rfl, hc1, ha0]; rfl
      · intro q hq; rw [hset, if_neg hq]
  · ext ⟨q, v⟩
    rw [Finset.mem_insert, Finset.mem_symmDiff, Finset.mem_symmDiff, mem_boundaries, mem_boundaries,
      mem_boundaries]
    simp only [hset]
    by_cases hq : q = p
    · subst hq
      by_cases hv : v = u
      · subst hv; simp; exact hx
      · have h1 : v ∉ typesAt a q := fun h => hv (Finset.mem_singleton.1 (ha q h))
        have h2 : v ∉ typesAt c q := fun h => hv (Finset.mem_singleton.1 (hc q h))
        simp [h1, h2, hv]
    · simp [hq]
  · rw [Finset.mem_symmDiff, mem_boundaries, mem_boundaries]
    simp [hset]

/-- What changes by `c` at most with one boundary changes by `d * c` at most with `d` boundaries. -/
theorem chain {n : ℕ} {b : ℚ} (f : BString → ℚ)
    (hf : ∀ a a' p, a.length = n → Only t a → Only t a' → OneMore a a' p t → |f a' - f a| ≤ b) :
    ∀ (d : ℕ) (a c : BString), a.length = n → c.length = n → Only t a → Only t c →
      (symmDiff (boundaries a) (boundaries c)).card = d → |f a - f c| ≤ d * b := by
  intro d
  induction d with
  | zero =>
    intro a c hla hlc ha hc hd
    have : boundaries a = boundaries c := by
      rw [Finset.card_eq_zero] at hd
      exact symmDiff_eq_bot.1 hd
    have hac : a = c := by
      refine List.ext_getElem (hla.trans hlc.symm) fun i h1 h2 => ?_
      ext u
      have := Finset.ext_iff.1 this (i, u)
      rw [mem_boundaries, mem_boundaries] at this
      simpa [typesAt, h1, h2] using this
    simp [hac]
  | succ d ih =>
    intro a c hla hlc ha hc hd
    obtain ⟨x, hx⟩ : (symmDiff (boundaries a) (boundaries c)).Nonempty := by
      rw [← Finset.card_pos]; omega
    obtain ⟨a₁, hl₁, h₁, hm, hi, hn⟩ := toggle ha hc (hla.trans hlc.symm) hx
    rw [hi, Finset.card_insert_of_notMem hn] at hd
    have g1 := ih a₁ c (hl₁.trans hla) hlc h₁ hc (by omega)
    have g2 : |f a - f a₁| ≤ b := by
      rcases hm with hm | hm
      · rw [abs_sub_comm]; exact hf a a₁ _ hla ha h₁ hm
      · exact hf a₁ a _ (hl₁.trans hla) h₁ ha hm
    calc |f a - f c| ≤ |f a - f a₁| + |f a₁ - f c| := abs_sub_le ..
      _ ≤ b + d * b := add_le_add g2 g1
      _ = _ := by push_cast; ring

theorem only_value {rt : Runtime} {b : BString} (nT : ℤ) (hb : Only t b)
    (ht : smallInt t = true ∨ ∀ site, rt.sameObj site t = true) (hpos : 0 < boundaryCount b)
    {a c : BString} (hla : a.length = b.length) (hlc : c.length = b.length) (ha : Only t a)
    (hc : Only t c) : |plainValue rt nT a b - plainValue rt nT c b| ≤
      (symmDiff (boundaries a) (boundaries c)).card * (1 / boundaryCount b) := by
  refine chain (n := b.length) (fun s => plainValue rt nT s b) (fun a a' p hl h h' hm => ?_) _ a c hla hlc ha hc rfl
  have he := only_edits (rt := rt) h hb hl nT
  have hg := (edits_ge hl (only_shared h hb ht) he).2
  refine (value_step hm hl (only_shared h hb ht) (only_shared h' hb ht) (oneSided_of_oneType h hb)
    (oneSided_of_oneType h' hb) he (only_edits h' hb (hm.length.trans hl) nT) (by omega)).trans ?_
  exact one_div_le_one_div_of_le (by exact_mod_cast hpos) (by exact_mod_cast hg)

theorem only_cost {rt : Runtime} {b : BString} (nT : ℤ) (hb : Only t b)
    (ht : smallInt t = true ∨ ∀ site, rt.sameObj site t = true)
    {a c : BString} (hla : a.length = b.length) (hlc : c.length = b.length) (ha : Only t a)
    (hc : Only t c) : |plainCost rt nT a b - plainCost rt nT c b| ≤
      (symmDiff (boundaries a) (boundaries c)).card := by
  have := chain (t := t) (n := b.length) (b := 1) (fun s => plainCost rt nT s b) (fun a a' p hl h h' hm =>
    (one_more hm hl (only_shared h hb ht) (only_shared h' hb ht) (oneSided_of_oneType h hb)
    (oneSided_of_oneType h' hb) (only_edits h hb hl nT)
      (only_edits h' hb (hm.length.trans hl) nT)).2.2.2.2) _ a c hla hlc ha hc rfl
  simpa using this

end

end SegEval
