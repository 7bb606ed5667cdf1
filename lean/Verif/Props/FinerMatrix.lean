import Verif.Props.FinerScaled
import Verif.Props.Dice

/-!
# C126: the confusion matrix in smaller units
-/

namespace SegEval.Props

open SegEval Spec

theorem credit_finerT {m : ℕ} (hm : 1 ≤ m) {w : Weights} (hw : w = .default ∨ w = .unscaled) {nT : ℤ}
    (hn : 0 < nT) (t : Transposition) : credit w (m * nT) (finerT m t) = credit w nT t := by
  have hm' : (0 : ℤ) < m := by exact_mod_cast hm
  rcases hw with rfl | rfl
  · rw [C40_credit _ (mul_pos hm' hn), C40_credit _ hn]
    have h1 : (finerPos m t.start : ℚ) + 1 = m * (t.start + 1) := by exact_mod_cast finerPos_succ hm t.start
    have h2 : (finerPos m t.stop : ℚ) + 1 = m * (t.stop + 1) := by exact_mod_cast finerPos_succ hm t.stop
    have hq : (0 : ℚ) < m := by exact_mod_cast hm
    simp only [finerT]
    rw [show (finerPos m t.start : ℚ) - finerPos m t.stop = m * ((t.start : ℚ) - t.stop) by linarith,
      abs_mul, abs_of_pos hq]
    push_cast
    exact mul_div_mul_left _ _ hq.ne'
  · rw [C40_unscaled, C40_unscaled]

theorem matchesOf_finer {m : ℕ} (hm : 1 ≤ m) (a b : BString) (t : ℤ) :
    matchesOf (finer m ∅ a) (finer m ∅ b) t = matchesOf a b t := by
  unfold matchesOf
  rw [← Finset.card_image_of_injective
    ((Finset.range a.length).filter (fun p => t ∈ typesAt a p ∩ typesAt b p)) (finerPos_injective hm)]
  congr 1
  ext p
  simp only [Finset.mem_filter, Finset.mem_range, Finset.mem_image]
  constructor
  · rintro ⟨h1, h2⟩
    have hd : m ∣ p + 1 := by
      by_contra hd
      rw [Finset.mem_inter, typesAt_finer hm, if_neg (fun h => hd (Nat.dvd_of_mod_eq_zero h))] at h2
      simp at h2
    obtain ⟨q, rfl⟩ := exists_finerPos hd
    rw [typesAt_finerPos hm, typesAt_finerPos hm] at h2
    exact ⟨q, ⟨(finerPos_lt_length hm).1 h1, h2⟩, rfl⟩
  · rintro ⟨q, ⟨h1, h2⟩, rfl⟩
    rw [typesAt_finerPos hm, typesAt_finerPos hm]
    exact ⟨(finerPos_lt_length hm).2 h1, h2⟩

/-- C126 for the confusion matrix: counted in smaller units, with `n_t` counted in them too, every cell
is the same. -/
theorem C126_scaled_matrix (rt : Runtime) (kw kw' : SimKw)
    (hw : kw.weight = .default ∨ kw.weight = .unscaled) (hw' : kw'.weight = kw.weight)
    (a b a' b' : Seg) (sa sb : BString) (m : ℕ) (hm : 1 ≤ m) (hn : kw'.nT = m * kw.nT) (h0 : 0 < kw.nT)
    (ha : Denotes kw.boundaryFormat a sa) (hb : Denotes kw.boundaryFormat b sb)
    (ha' : Denotes kw'.boundaryFormat a' (finer m ∅ sa))
    (hb' : Denotes kw'.boundaryFormat b' (finer m ∅ sb))
    (hs : SharedTypes rt sa sb) (x x' : CM BLabel) (hx : boundaryConfusionMatrix rt kw a b = .ok x)
    (hx' : boundaryConfusionMatrix rt kw' a' b' = .ok x') (p q : BLabel) :
    entry x' p q = entry x p q := by
  obtain ⟨hl, e, he, -⟩ := bcm_inv ha hb hx
  obtain ⟨-, e', he', -⟩ := bcm_inv ha' hb' hx'
  obtain ⟨c1, c2, c3, c4, c5⟩ := C38_cells rt kw a b sa sb ha hb e he x hx
  obtain ⟨d1, d2, d3, d4, d5⟩ := C38_cells rt kw' a' b' _ _ ha' hb' e' he' x' hx'
  rw [hn] at he'
  obtain ⟨p1, p2, p3⟩ := (C126_scaled_edits rt sa sb hl kw.nT m hm hs).2 e e' he he'
  rcases p with _ | p
  · rcases q with _ | q
    · rw [c5, d5]
    · rw [c3, d3, p2.countP_eq]
  · rcases q with _ | q
    · rw [c4, d4, p2.countP_eq]
    · by_cases hpq : p = q
      · subst hpq
        rw [c1, d1, matchesOf_finer hm, ((p1.filter _).map _).sum_eq, List.filter_map, List.map_map]
        congr 2
        refine List.map_congr_left fun t _ => ?_
        simp only [Function.comp_apply, hn, hw']
        exact credit_finerT hm hw h0 t
      · rw [c2 p q hpq, d2 p q hpq, p3.countP_eq]

/-- C126: hence micro-averaged precision and recall are the same. -/
theorem C126_scaled_micro (rt : Runtime) (kw kw' : SimKw)
    (hw : kw.weight = .default ∨ kw.weight = .unscaled) (hw' : kw'.weight = kw.weight)
    (a b a' b' : Seg) (sa sb : BString) (m : ℕ) (hm : 1 ≤ m) (hn : kw'.nT = m * kw.nT) (h0 : 0 < kw.nT)
    (ha : Denotes kw.boundaryFormat a sa) (hb : Denotes kw.boundaryFormat b sb)
    (ha' : Denotes kw'.boundaryFormat a' (finer m ∅ sa))
    (hb' : Denotes kw'.boundaryFormat b' (finer m ∅ sb))
    (hs : SharedTypes rt sa sb) (x x' : CM BLabel) (hx : boundaryConfusionMatrix rt kw a b = .ok x)
    (hx' : boundaryConfusionMatrix rt kw' a' b' = .ok x') (o o' : ClassOrder BLabel)
    (site site' : List ℕ) :
    answer (precision o' site' none .micro x') = answer (precision o site none .micro x) ∧
    answer (recall o' site' none .micro x') = answer (recall o site none .micro x) := by
  have hs1 : Supplied kw.weight := by
    rcases hw with hw | hw <;> rw [hw]
    · exact ⟨rfl, Or.inr rfl, Or.inr rfl⟩
    · exact ⟨rfl, Or.inl rfl, Or.inl rfl⟩
  have hpos : 0 < kw'.nT := by rw [hn]; exact mul_pos (by exact_mod_cast hm) h0
  obtain ⟨hl, e, he, -⟩ := bcm_inv ha hb hx
  obtain ⟨-, e', he', -⟩ := bcm_inv ha' hb' hx'
  obtain ⟨a1, a2⟩ := C109_micro rt kw hs1 h0 a b sa sb ha hb e he x hx o site
  obtain ⟨b1, b2⟩ := C109_micro rt kw' (by rw [hw']; exact hs1) hpos a' b' _ _ ha' hb' e' he' x' hx' o' site'
  rw [hn] at he'
  obtain ⟨p1, p2, p3⟩ := (C126_scaled_edits rt sa sb hl kw.nT m hm hs).2 e e' he he'
  have hc : (e'.transpositions.map (credit kw'.weight kw'.nT)).sum =
      (e.transpositions.map (credit kw.weight kw.nT)).sum := by
    rw [(p1.map _).sum_eq, List.map_map]
    congr 1
    refine List.map_congr_left fun t _ => ?_
    simp only [Function.comp_apply, hn, hw']
    exact credit_finerT hm hw h0 t
  rw [a1, a2, b1, b2, hc, matchCount_finer hm, p2.length_eq, p3.length_eq]
  exact ⟨rfl, rfl⟩

/-- A near miss in units and in halves of them. -/
example :
    (boundaryConfusionMatrix .ascending {} (massSeg [2, 4, 2]) (massSeg [2, 3, 3])).map
      (fun m => entry m (some 1) (some 1)) = .ok (3 / 2) ∧
    (boundaryConfusionMatrix .ascending { nT := 4 } (massSeg [4, 8, 4]) (massSeg [4, 6, 6])).map
      (fun m => entry m (some 1) (some 1)) = .ok (3 / 2) := by
  refine ⟨?_, ?_⟩ <;> decide +kernel

end SegEval.Props
