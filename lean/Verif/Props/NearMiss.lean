import Verif.Lemmas.NearMiss
import Verif.Props.Locality

/-!
# C101: nearer misses score higher
-/

namespace SegEval.Props

open SegEval Spec

/-- C101: an isolated near miss is exactly one transposition, from the one place to the other, added to the
script of the hypothesis with the boundary put right. -/
theorem C101_edits (rt rt' : Runtime) {a b a' : BString} {nT : ℤ} {p q : ℕ} {t : ℤ} (hl : a.length = b.length)
    (hm : NearMiss a b nT p q t) (hc : PutRight a b p q a') (hs : SharedTypes rt a b) (hs' : SharedTypes rt' a' b)
    {e : Edits} (he : boundaryEditDistance rt a b nT = .ok e) :
    ∃ e', boundaryEditDistance rt' a' b nT = .ok e' ∧
      e.transpositions.Perm (⟨min p q, max p q, t⟩ :: e'.transpositions) ∧
      e.additions.Perm e'.additions ∧ e.substitutions.Perm e'.substitutions := by
  rw [bed_iff _ (le_of_eq hl)] at he
  obtain ⟨hb, rfl⟩ := he
  refine ⟨editsOf rt' a' b nT, ?_, hm.edits hc hl hs hs'⟩
  rw [bed_iff _ (le_of_eq (hc.length.trans hl))]
  refine ⟨fun r hr => ?_, rfl⟩
  obtain ⟨l1, l2⟩ := hm.leftovers hc hl hs hs' r
  rw [Balanced, ← l1, ← l2]
  exact hb r (hc.length ▸ hr)

theorem nearMiss_cost {rt : Runtime} {a b a' : BString} {nT : ℤ} {p q : ℕ} {t : ℤ} (hl : a.length = b.length)
    (hm : NearMiss a b nT p q t) (hc : PutRight a b p q a') (hs : SharedTypes rt a b) (mx mn : ℤ) :
    scriptCost nT mx mn (editsOf rt a b nT) =
      scriptCost nT mx mn (editsOf rt a' b nT) + (|(p : ℤ) - q| : ℤ) / nT ∧
    editCount (editsOf rt a b nT) = editCount (editsOf rt a' b nT) + 1 := by
  obtain ⟨h1, h2, h3⟩ := hm.edits hc hl hs (hc.shared hs)
  constructor
  · rw [scriptCost, scriptCost, (h1.map _).sum_eq, h2.length_eq, (h3.map _).sum_eq, List.map_cons, List.sum_cons]
    have e : transpositionCost nT (missT p q t) = (|(p : ℤ) - q| : ℤ) / nT := by
      rw [transpositionCost, missT]
      congr 1
      have : ((max p q : ℕ) : ℤ) - (min p q : ℕ) = |(p : ℤ) - q| := by
        rcases le_total p q with h | h
        · rw [max_eq_right h, min_eq_left h, abs_of_nonpos (by omega)]; ring
        · rw [max_eq_left h, min_eq_right h, abs_of_nonneg (by omega)]
      exact_mod_cast congrArg (fun z : ℤ => (z : ℚ)) this
    rw [e]
    ring
  · rw [editCount, editCount, h1.length_eq, h2.length_eq, h3.length_eq, List.length_cons]
    omega

/-- C101: an isolated near miss of `d` positions costs boundary similarity `d / n_t` of one boundary: of the
number of edits and matches with the boundary put right. -/
theorem C101_boundary (rt : Runtime) (kw : SimKw) (hw : kw.weight = .default) (hr : kw.returnParts = false)
    (ho : kw.oneMinus = false) {a b a' : Seg} {sa sb sa' : BString} (ha : Denotes kw.boundaryFormat a sa)
    (hb : Denotes kw.boundaryFormat b sb) (ha' : Denotes kw.boundaryFormat a' sa') {p q : ℕ} {t : ℤ}
    (hm : NearMiss sa sb kw.nT p q t) (hc : PutRight sa sb p q sa') (hs : SharedTypes rt sa sb) {x x' : ℚ}
    (h : Returns (boundarySimilarity rt kw a b) x) (h' : Returns (boundarySimilarity rt kw a' b) x') {e : Edits}
    (he : boundaryEditDistance rt sa' sb kw.nT = .ok e) :
    0 < editCount e + matchCount sa' sb ∧
    x = x' - ((|(p : ℤ) - q| : ℤ) / kw.nT) / (editCount e + matchCount sa' sb) := by
  obtain ⟨hl, hu, -, hp, hx⟩ := boundary_value hw hr ho ha hb h
  obtain ⟨-, -, he', hp', hx'⟩ := boundary_value hw hr ho ha' hb h'
  rw [he', Except.ok.injEq] at he
  subst he
  obtain ⟨mx, mn, hmx⟩ := extremes_exist hu
  obtain ⟨hcost, hcount⟩ := nearMiss_cost hl hm hc hs mx mn
  have hx := hx _ _ hmx
  have hx' := hx' _ _ (hmx.same (hm.sameTypes hc))
  have hmc := hm.matchCount hc hl
  refine ⟨hp', ?_⟩
  rw [hx, hx', scriptCredit_eq, scriptCredit_eq, hcost, hcount, hmc, ← sub_div]
  congr 1
  · push_cast; ring
  · push_cast; ring

/-- C101: segmentation similarity likewise, of its denominator. -/
theorem C101_segmentation (rt : Runtime) (kw : SimKw) (hw : kw.weight = .default) (hr : kw.returnParts = false)
    (ho : kw.oneMinus = false) {a b a' : Seg} {sa sb sa' : BString} (ha : Denotes kw.boundaryFormat a sa)
    (hb : Denotes kw.boundaryFormat b sb) (ha' : Denotes kw.boundaryFormat a' sa') {p q : ℕ} {t : ℤ}
    (hm : NearMiss sa sb kw.nT p q t) (hc : PutRight sa sb p q sa') (hs : SharedTypes rt sa sb) {x x' : ℚ}
    (h : Returns (segmentationSimilarity rt kw a b) x) (h' : Returns (segmentationSimilarity rt kw a' b) x')
    {types : Finset ℤ} (hty : ∀ d, d ∈ types ↔ UsesType sa sb d) :
    x = x' - ((|(p : ℤ) - q| : ℤ) / kw.nT) / (sa.length * types.card * types.card) := by
  obtain ⟨hl, hu, -, hx⟩ := segmentation_value hw hr ho ha hb h
  obtain ⟨-, -, -, hx'⟩ := segmentation_value hw hr ho ha' hb h'
  obtain ⟨mx, mn, hmx⟩ := extremes_exist hu
  obtain ⟨hcost, -⟩ := nearMiss_cost hl hm hc hs mx mn
  have hx := hx _ _ hmx
  have hx' := hx' _ _ (hmx.same (hm.sameTypes hc))
  have k0 : identifyTypes sa sb = types := by ext d; rw [mem_identifyTypes, hty d]
  have k1 : identifyTypes sa' sb = types := by
    ext d; rw [mem_identifyTypes, hty d, ← hm.sameTypes hc d]
  rw [hx, hx', k0, k1, hc.length, hcost, add_div]
  ring

/-- C101: a missing boundary costs 1 of that number. -/
theorem C101_omission (rt : Runtime) (kw : SimKw) (hw : kw.weight = .default) (hr : kw.returnParts = false)
    (ho : kw.oneMinus = false) {a b a' : Seg} {sa sb sa' : BString} (ha : Denotes kw.boundaryFormat a sa)
    (hb : Denotes kw.boundaryFormat b sb) (ha' : Denotes kw.boundaryFormat a' sa') {p : ℕ} {t : ℤ}
    (hm : Omission sa sb kw.nT p t) (hc : Corrected sa sb p sa') (hs : SharedTypes rt sa sb) {x x' : ℚ}
    (h : Returns (boundarySimilarity rt kw a b) x) (h' : Returns (boundarySimilarity rt kw a' b) x') {e : Edits}
    (he : boundaryEditDistance rt sa' sb kw.nT = .ok e) :
    x = x' - 1 / (editCount e + matchCount sa' sb) := by
  obtain ⟨hl, hu, -, hp, hx⟩ := boundary_value hw hr ho ha hb h
  obtain ⟨-, -, he', hp', hx'⟩ := boundary_value hw hr ho ha' hb h'
  rw [he', Except.ok.injEq] at he
  subst he
  obtain ⟨mx, mn, hmx⟩ := extremes_exist hu
  have o1 : onlyIn sa sb p = ∅ := by
    rw [onlyIn, hm.missing.1, Finset.sdiff_eq_empty_iff_subset]
    exact Finset.subset_insert _ _
  have o2 : onlyIn sb sa p = {t} := by
    rw [onlyIn, hm.missing.1, Finset.insert_sdiff_of_notMem _ hm.missing.2, Finset.sdiff_self]
    rfl
  have hd : missedAt sa sb p ≠ ∅ := by simp [missedAt, o1, o2]
  obtain ⟨h1, h2, h3⟩ := hc.edits hm.alone hl (missed_lt hl hd) hs (hc.shared hs)
  have a1 : (addsOf rt p (onlyIn sa sb p) (onlyIn sb sa p)).length = 1 := by rw [addsOf_length, o1, o2]; rfl
  have s1 : subsOf rt p (onlyIn sa sb p) (onlyIn sb sa p) = [] :=
    List.eq_nil_of_length_eq_zero (by rw [subsOf_length, o1]; rfl)
  rw [s1, List.append_nil] at h3
  have hcost : scriptCost kw.nT mx mn (editsOf rt sa sb kw.nT) = scriptCost kw.nT mx mn (editsOf rt sa' sb kw.nT) + 1 := by
    rw [scriptCost, scriptCost, (h1.map _).sum_eq, h2.length_eq, (h3.map _).sum_eq, List.length_append, a1]
    push_cast; ring
  have hcount : editCount (editsOf rt sa sb kw.nT) = editCount (editsOf rt sa' sb kw.nT) + 1 := by
    rw [editCount, editCount, h1.length_eq, h2.length_eq, h3.length_eq, List.length_append, a1]
    omega
  have hst : SameTypes sa sb sa' sb := by
    intro d
    constructor
    · rintro ⟨r, hr | hr⟩
      · by_cases hq : r = p
        · subst hq; exact ⟨r, .inr (by rw [hm.missing.1]; exact Finset.mem_insert_of_mem hr)⟩
        · exact ⟨r, .inl (by rw [hc.elsewhere r hq]; exact hr)⟩
      · exact ⟨r, .inr hr⟩
    · rintro ⟨r, hr | hr⟩
      · by_cases hq : r = p
        · subst hq; exact ⟨r, .inr (hc.here ▸ hr)⟩
        · exact ⟨r, .inl (hc.elsewhere r hq ▸ hr)⟩
      · exact ⟨r, .inr hr⟩
  have hx := hx _ _ hmx
  have hx' := hx' _ _ (hmx.same hst)
  have hmc := hc.matchCount (missed_lt hl hd)
  rw [o2, Finset.card_singleton] at hmc
  rw [hx, hx', scriptCredit_eq, scriptCredit_eq, hcost, hcount, hmc, ← sub_div]
  congr 1
  · push_cast; ring
  · push_cast; ring

/-- C101: the right place scores more than a near miss, a near miss more than a farther one, and any near
miss more than a missing boundary. -/
theorem C101_order (rt : Runtime) (kw : SimKw) (hw : kw.weight = .default) (hr : kw.returnParts = false)
    (ho : kw.oneMinus = false) {right near far none b : Seg} {sr sn sf so sb : BString}
    (hright : Denotes kw.boundaryFormat right sr) (hnear : Denotes kw.boundaryFormat near sn)
    (hfar : Denotes kw.boundaryFormat far sf) (hnone : Denotes kw.boundaryFormat none so)
    (hb : Denotes kw.boundaryFormat b sb) {p q q' : ℕ} {t : ℤ}
    (mn : NearMiss sn sb kw.nT p q t) (mf : NearMiss sf sb kw.nT p q' t) (mo : Omission so sb kw.nT p t)
    (hq : |(p : ℤ) - q| < |(p : ℤ) - q'|) (cn : PutRight sn sb p q sr) (cf : PutRight sf sb p q' sr)
    (co : Corrected so sb p sr) (s1 : SharedTypes rt sn sb) (s2 : SharedTypes rt sf sb) (s3 : SharedTypes rt so sb)
    {x y z w : ℚ} (hx : Returns (boundarySimilarity rt kw right b) x)
    (hy : Returns (boundarySimilarity rt kw near b) y) (hz : Returns (boundarySimilarity rt kw far b) z)
    (hww : Returns (boundarySimilarity rt kw none b) w) : w < z ∧ z < y ∧ y < x := by
  obtain ⟨-, -, he, -, -⟩ := boundary_value hw hr ho hright hb hx
  obtain ⟨hN, ey⟩ := C101_boundary rt kw hw hr ho hnear hb hright mn cn s1 hy hx he
  obtain ⟨-, ez⟩ := C101_boundary rt kw hw hr ho hfar hb hright mf cf s2 hz hx he
  have ew := C101_omission rt kw hw hr ho hnone hb hright mo co s3 hww hx he
  have hN : (0 : ℚ) < editCount (editsOf rt sr sb kw.nT) + matchCount sr sb := by exact_mod_cast hN
  have d0 : 0 < |(p : ℤ) - q| := abs_pos.2 (by have := mn.apart; omega)
  have hT : 0 < kw.nT := (abs_nonneg _).trans_lt mn.near
  have hT' : (0 : ℚ) < kw.nT := by exact_mod_cast hT
  have c1 : (0 : ℚ) < (|(p : ℤ) - q| : ℤ) / kw.nT := div_pos (by exact_mod_cast d0) hT'
  have c2 : ((|(p : ℤ) - q| : ℤ) : ℚ) / kw.nT < (|(p : ℤ) - q'| : ℤ) / kw.nT :=
    div_lt_div_of_pos_right (by exact_mod_cast hq) hT'
  have c3 : ((|(p : ℤ) - q'| : ℤ) : ℚ) / kw.nT < 1 := by
    rw [div_lt_one hT']; exact_mod_cast mf.near
  refine ⟨?_, ?_, ?_⟩
  · rw [ew, ez]; exact sub_lt_sub_left (div_lt_div_of_pos_right c3 hN) _
  · rw [ez, ey]; exact sub_lt_sub_left (div_lt_div_of_pos_right c2 hN) _
  · rw [ey]; have := div_pos c1 hN; linarith

/-- C101: a boundary out of reach scores no more than none at all. -/
theorem C101_far (rt : Runtime) (kw : SimKw) (hw : kw.weight = .default) (hr : kw.returnParts = false)
    (ho : kw.oneMinus = false) {far none b : Seg} {sf so sb : BString}
    (hfar : Denotes kw.boundaryFormat far sf) (hnone : Denotes kw.boundaryFormat none so)
    (hb : Denotes kw.boundaryFormat b sb) {p q : ℕ} {t : ℤ} (ht : t ∈ typesAt sb p)
    (hp : typesAt sf q = insert t (typesAt sb q) ∧ t ∉ typesAt sb q) (hi : Isolated sf sb kw.nT q)
    (hc : Corrected sf sb q so) (hs : SharedTypes rt sf sb) {z w : ℚ}
    (hz : Returns (boundarySimilarity rt kw far b) z) (hww : Returns (boundarySimilarity rt kw none b) w) :
    z ≤ w := by
  refine (C75_boundary rt kw hw hr ho far b none sf sb so hfar hb hnone q ?_ hc hi hs ?_ z w hz hww).1
  · rw [missedAt, onlyIn, hp.1, Finset.insert_sdiff_of_notMem _ hp.2]
    simp
  · intro d
    constructor
    · rintro ⟨r, hr | hr⟩
      · by_cases hq : r = q
        · subst hq
          rw [hp.1, Finset.mem_insert] at hr
          rcases hr with rfl | hr
          · exact ⟨p, .inr ht⟩
          · exact ⟨r, .inr hr⟩
        · exact ⟨r, .inl (by rw [hc.elsewhere r hq]; exact hr)⟩
      · exact ⟨r, .inr hr⟩
    · rintro ⟨r, hr | hr⟩
      · by_cases hq : r = q
        · subst hq; exact ⟨r, .inr (hc.here ▸ hr)⟩
        · exact ⟨r, .inl (hc.elsewhere r hq ▸ hr)⟩
      · exact ⟨r, .inr hr⟩

/-- C101: only for isolated near misses.  With `n_t = 3`, boundaries after units 2 and 5 are near misses of
those after units 1 and 4; moving the first to unit 3, nearer to unit 4, pairs it with the wrong one. -/
theorem C101_isolated_needed :
    Returns (boundarySimilarity .ascending { nT := 3 } (massSeg [2, 3, 1]) (massSeg [1, 3, 2])) (2 / 3) ∧
    Returns (boundarySimilarity .ascending { nT := 3 } (massSeg [3, 2, 1]) (massSeg [1, 3, 2])) (2 / 9) :=
  ⟨⟨.dec (2 / 3), by decide +kernel, by norm_num [PyNum.val]⟩,
    ⟨.dec (2 / 9), by decide +kernel, by norm_num [PyNum.val]⟩⟩

/-- The second boundary in the right place, one and two places to the right, and missing; the first is
misplaced everywhere. -/
def exPut (s : List ℕ) : BString := (List.range 13).map (fun i => if i ∈ s then {1} else ∅)

theorem exPut_at (s : List ℕ) (r : ℕ) (hr : 13 ≤ r) : typesAt (exPut s) r = ∅ :=
  typesAt_beyond (by simpa [exPut] using hr)

/-- C101 at an example. -/
example : NearMiss (exPut [0, 8]) (exPut [1, 7]) 3 7 8 1 ∧ NearMiss (exPut [0, 9]) (exPut [1, 7]) 3 7 9 1 ∧
    Omission (exPut [0]) (exPut [1, 7]) 3 7 1 ∧ PutRight (exPut [0, 9]) (exPut [1, 7]) 7 9 (exPut [0, 7]) ∧
    Returns (boundarySimilarity .ascending { nT := 3 } (massSeg [1, 7, 6]) (massSeg [2, 6, 6])) (5 / 6) ∧
    Returns (boundarySimilarity .ascending { nT := 3 } (massSeg [1, 8, 5]) (massSeg [2, 6, 6])) (2 / 3) ∧
    Returns (boundarySimilarity .ascending { nT := 3 } (massSeg [1, 9, 4]) (massSeg [2, 6, 6])) (1 / 2) ∧
    Returns (boundarySimilarity .ascending { nT := 3 } (massSeg [1, 13]) (massSeg [2, 6, 6])) (1 / 3) := by
  refine ⟨⟨by decide, by decide, by decide +kernel, by decide +kernel, ?_⟩,
    ⟨by decide, by decide, by decide +kernel, by decide +kernel, ?_⟩, ⟨by decide +kernel, ?_⟩,
    ⟨rfl, by decide +kernel, by decide +kernel, ?_⟩,
    ⟨.dec (5 / 6), by decide +kernel, by norm_num [PyNum.val]⟩, ⟨.dec (2 / 3), by decide +kernel, by norm_num [PyNum.val]⟩,
    ⟨.dec (1 / 2), by decide +kernel, by norm_num [PyNum.val]⟩, ⟨.dec (1 / 3), by decide +kernel, by norm_num [PyNum.val]⟩⟩
  · intro r h1 h2 h
    have hr : r < 13 := by rw [abs_lt, abs_lt] at h; omega
    exact (by decide +kernel : ∀ r : ℕ, r < 13 → r ≠ 7 → r ≠ 8 → |(r : ℤ) - (7 : ℕ)| < 3 ∨ |(r : ℤ) - (8 : ℕ)| < 3 →
      missedAt (exPut [0, 8]) (exPut [1, 7]) r = ∅) r hr h1 h2 h
  · intro r h1 h2 h
    have hr : r < 13 := by rw [abs_lt, abs_lt] at h; omega
    exact (by decide +kernel : ∀ r : ℕ, r < 13 → r ≠ 7 → r ≠ 9 → |(r : ℤ) - (7 : ℕ)| < 3 ∨ |(r : ℤ) - (9 : ℕ)| < 3 →
      missedAt (exPut [0, 9]) (exPut [1, 7]) r = ∅) r hr h1 h2 h
  · intro r h1 h
    have hr : r < 13 := by rw [abs_lt] at h; omega
    exact (by decide +kernel : ∀ r : ℕ, r < 13 → r ≠ 7 → |(r : ℤ) - (7 : ℕ)| < 3 →
      missedAt (exPut [0]) (exPut [1, 7]) r = ∅) r hr h1 h
  · intro r h1 h2
    rcases lt_or_ge r 13 with hr | hr
    · exact (by decide +kernel : ∀ r : ℕ, r < 13 → r ≠ 7 → r ≠ 9 → typesAt (exPut [0, 7]) r = typesAt (exPut [0, 9]) r)
        r hr h1 h2
    · rw [exPut_at _ r hr, exPut_at _ r hr]

end SegEval.Props
