import Verif.Lemmas.FinerEdits
import Verif.Props.Finer

/-!
# C126: smaller units, with `n_t` counted in them too
-/

namespace SegEval.Props

open SegEval Spec

/-- C126 for the edits: counted in smaller units, with `n_t` multiplied alike, boundary edit distance
answers for the same strings, and finds the same edits, the transpositions between the same places. -/
theorem C126_scaled_edits (rt : Runtime) (a b : BString) (hl : a.length = b.length) (nT : ℤ) (m : ℕ)
    (hm : 1 ≤ m) (hs : SharedTypes rt a b) :
    ((∃ e', boundaryEditDistance rt (finer m ∅ a) (finer m ∅ b) (m * nT) = .ok e') ↔
      ∃ e, boundaryEditDistance rt a b nT = .ok e) ∧
    ∀ e e', boundaryEditDistance rt a b nT = .ok e →
      boundaryEditDistance rt (finer m ∅ a) (finer m ∅ b) (m * nT) = .ok e' →
      e'.transpositions.Perm (e.transpositions.map
        (fun t => ⟨m * (t.start + 1) - 1, m * (t.stop + 1) - 1, t.type⟩)) ∧
      e'.additions.Perm e.additions ∧ e'.substitutions.Perm e.substitutions := by
  have hL : (finer m ∅ a).length = (finer m ∅ b).length := by
    have h1 := finer_length (d := (∅ : Finset ℤ)) hm a
    have h2 := finer_length (d := (∅ : Finset ℤ)) hm b
    rw [hl] at h1; omega
  constructor
  · simp only [bed_iff _ (le_of_eq hL), bed_iff _ (le_of_eq hl), exists_and_left, exists_eq, and_true]
    exact balanced_finer hm hl hs
  · intro e e' h h'
    rw [bed_edits (le_of_eq hL) h', bed_edits (le_of_eq hl) h]
    exact edits_scaled hm hl hs

theorem extremes_finer {m : ℕ} (hm : 1 ≤ m) {a b : BString} {mx mn : ℤ} (h : Extremes a b mx mn) :
    Extremes (finer m ∅ a) (finer m ∅ b) mx mn :=
  h.same fun _ => (usesType_finer hm).symm

/-- C126 for boundary similarity with `n_t` counted in the smaller units too: the score is unchanged,
for every `n_t` and any number of boundary types. -/
theorem C126_scaled_boundary (rt : Runtime) (kw kw' : SimKw) (hw : kw.weight = .default)
    (hw' : kw'.weight = .default) (hr : kw.returnParts = false) (hr' : kw'.returnParts = false)
    (ho : kw.oneMinus = false) (ho' : kw'.oneMinus = false) (a b a' b' : Seg) (sa sb : BString)
    (m : ℕ) (hm : 1 ≤ m) (hn : kw'.nT = m * kw.nT)
    (ha : Denotes kw.boundaryFormat a sa) (hb : Denotes kw.boundaryFormat b sb)
    (ha' : Denotes kw'.boundaryFormat a' (finer m ∅ sa))
    (hb' : Denotes kw'.boundaryFormat b' (finer m ∅ sb))
    (hs : SharedTypes rt sa sb) (x x' : ℚ) (hx : Returns (boundarySimilarity rt kw a b) x)
    (hx' : Returns (boundarySimilarity rt kw' a' b') x') :
    x' = x := by
  obtain ⟨hl, u, -, -, e⟩ := boundary_value hw hr ho ha hb hx
  obtain ⟨-, -, -, -, e'⟩ := boundary_value hw' hr' ho' ha' hb' hx'
  obtain ⟨mx, mn, h⟩ := extremes_exist u
  obtain ⟨c, d⟩ := cost_scaled (nT := kw.nT) hm hl hs mx mn
  rw [e' mx mn (extremes_finer hm h), e mx mn h, scriptCredit_eq, scriptCredit_eq, hn, c, d,
    matchCount_finer hm]

theorem missedAt_finer_le {m : ℕ} (hm : 1 ≤ m) {a b : BString} {k : ℕ}
    (h : ∀ p, (missedAt a b p).card ≤ k) (p : ℕ) :
    (missedAt (finer m ∅ a) (finer m ∅ b) p).card ≤ k := by
  by_cases hd : m ∣ p + 1
  · obtain ⟨q, rfl⟩ := exists_finerPos hd
    rw [missedAt, onlyIn_finerPos hm, onlyIn_finerPos hm]
    exact h q
  · rw [missed_finer hm hd]; simp

/-- C126: whenever boundary similarity is defined (with at most 256 differing types at a position), it
is defined in the smaller units, and the same. -/
theorem C126_scaled_returns (rt : Runtime) (kw kw' : SimKw) (hw : kw.weight = .default)
    (hw' : kw'.weight = .default) (hr : kw.returnParts = false) (hr' : kw'.returnParts = false)
    (ho : kw.oneMinus = false) (ho' : kw'.oneMinus = false) (a b a' b' : Seg) (sa sb : BString)
    (m : ℕ) (hm : 1 ≤ m) (hn : kw'.nT = m * kw.nT) (h0 : kw.nT ≠ 0)
    (ha : Denotes kw.boundaryFormat a sa) (hb : Denotes kw.boundaryFormat b sb)
    (ha' : Denotes kw'.boundaryFormat a' (finer m ∅ sa))
    (hb' : Denotes kw'.boundaryFormat b' (finer m ∅ sb))
    (hs : SharedTypes rt sa sb) (hsmall : ∀ p, (missedAt sa sb p).card ≤ 256) (x : ℚ)
    (hx : Returns (boundarySimilarity rt kw a b) x) :
    Returns (boundarySimilarity rt kw' a' b') x := by
  obtain ⟨hl, ⟨t, ht⟩, -⟩ := boundary_value hw hr ho ha hb hx
  have hL : (finer m ∅ sa).length = (finer m ∅ sb).length := by
    have h1 := finer_length (d := (∅ : Finset ℤ)) hm sa
    have h2 := finer_length (d := (∅ : Finset ℤ)) hm sb
    rw [hl] at h1; omega
  have hz : (m : ℤ) * kw.nT ≠ 0 := mul_ne_zero (by exact_mod_cast (show m ≠ 0 by omega)) h0
  obtain ⟨⟨x', hx'⟩, -⟩ := C17_total rt kw' hw' hr' a' b' _ _ ha' hb' hL (by rw [hn]; exact hz)
    ⟨t, (usesType_finer hm).2 ht⟩ (missedAt_finer_le hm hsmall)
  rw [← C126_scaled_boundary rt kw kw' hw hw' hr hr' ho ho' a b a' b' sa sb m hm hn ha hb ha' hb' hs
    x x' hx hx']
  exact hx'

/-- C126 for segmentation similarity with `n_t` counted in the smaller units too: the dissimilarity
falls in the proportion of the potential boundaries, since there are more of them. -/
theorem C126_scaled_segmentation (rt : Runtime) (kw kw' : SimKw) (hw : kw.weight = .default)
    (hw' : kw'.weight = .default) (hr : kw.returnParts = false) (hr' : kw'.returnParts = false)
    (ho : kw.oneMinus = false) (ho' : kw'.oneMinus = false) (a b a' b' : Seg) (sa sb : BString)
    (m : ℕ) (hm : 1 ≤ m) (hn : kw'.nT = m * kw.nT)
    (ha : Denotes kw.boundaryFormat a sa) (hb : Denotes kw.boundaryFormat b sb)
    (ha' : Denotes kw'.boundaryFormat a' (finer m ∅ sa))
    (hb' : Denotes kw'.boundaryFormat b' (finer m ∅ sb))
    (hs : SharedTypes rt sa sb) (x x' : ℚ) (hx : Returns (segmentationSimilarity rt kw a b) x)
    (hx' : Returns (segmentationSimilarity rt kw' a' b') x') :
    (1 - x') * (m * (sa.length + 1) - 1) = (1 - x) * sa.length := by
  obtain ⟨hl, u, -, e⟩ := segmentation_value hw hr ho ha hb hx
  obtain ⟨-, -, -, e'⟩ := segmentation_value hw' hr' ho' ha' hb' hx'
  obtain ⟨mx, mn, h⟩ := extremes_exist u
  obtain ⟨c, -⟩ := cost_scaled (nT := kw.nT) hm hl hs mx mn
  have hty : identifyTypes (finer m ∅ sa) (finer m ∅ sb) = identifyTypes sa sb := by
    ext t
    rw [mem_identifyTypes, mem_identifyTypes, usesType_finer hm]
  have hlen : ((finer m ∅ sa).length : ℚ) = m * (sa.length + 1) - 1 := by
    have : ((finer m (∅ : Finset ℤ) sa).length : ℚ) + 1 = m * (sa.length + 1) := by
      exact_mod_cast finer_length (d := (∅ : Finset ℤ)) hm sa
    linarith
  have h0 : 0 < sa.length := by
    obtain ⟨t, p, hp⟩ := u
    by_contra h0
    have e1 : typesAt sa p = ∅ := typesAt_beyond (by omega)
    have e2 : typesAt sb p = ∅ := typesAt_beyond (by omega)
    simp [e1, e2] at hp
  have h0' : (0 : ℚ) < sa.length := by exact_mod_cast h0
  have hm' : (1 : ℚ) ≤ m := by exact_mod_cast hm
  have h1 : (0 : ℚ) < m * (sa.length + 1) - 1 := by nlinarith
  rw [e' mx mn (extremes_finer hm h), e mx mn h, hn, c, hty, hlen]
  have hc : ((identifyTypes sa sb).card : ℚ) ≠ 0 := by
    have : (identifyTypes sa sb).card ≠ 0 := by
      obtain ⟨t, ht⟩ := u
      exact Finset.card_ne_zero_of_mem (mem_identifyTypes.2 ht)
    exact_mod_cast this
  generalize ((identifyTypes sa sb).card : ℚ) = k at *
  field_simp
  ring

/-- C126 for masses: every mass and `n_t` multiplied by `m`, boundary similarity is unchanged, and the
dissimilarity of segmentation similarity is divided by the growth of the document's potential
boundaries. -/
theorem C126_scaled_masses (rt : Runtime) (kw kw' : SimKw) (hw : kw.weight = .default)
    (hw' : kw'.weight = .default) (hr : kw.returnParts = false) (hr' : kw'.returnParts = false)
    (ho : kw.oneMinus = false) (ho' : kw'.oneMinus = false) (hf : kw.boundaryFormat = .mass)
    (hf' : kw'.boundaryFormat = .mass) (t t' : Bool) (l r l' r' : List Obj) (m : ℕ) (hm : 1 ≤ m)
    (hn : kw'.nT = m * kw.nT)
    (hl : l'.map Obj.val = l.map (fun x => (m : ℤ) * x.val))
    (hr'' : r'.map Obj.val = r.map (fun x => (m : ℤ) * x.val)) (p q : List Bool)
    (hp : Means .mass (.ints t l) p) (hq : Means .mass (.ints t r) q) (x x' : ℚ) :
    (Returns (boundarySimilarity rt kw (.ints t l) (.ints t r)) x →
      Returns (boundarySimilarity rt kw' (.ints t' l') (.ints t' r')) x' → x' = x) ∧
    (Returns (segmentationSimilarity rt kw (.ints t l) (.ints t r)) x →
      Returns (segmentationSimilarity rt kw' (.ints t' l') (.ints t' r')) x' →
      (1 - x') * (m * (p.length + 1) - 1) = (1 - x) * p.length) := by
  have hp' := C126_masses m hm t t' l l' p hp hl
  have hq' := C126_masses m hm t t' r r' q hq hr''
  have den : ∀ {s p}, Means .mass s p →
      Denotes .mass s (p.map (fun x => if x then ({1} : Finset ℤ) else ∅)) := fun h => ⟨_, h, rfl⟩
  have fin : ∀ p : List Bool, (finer m false p).map (fun x => if x then ({1} : Finset ℤ) else ∅) =
      finer m ∅ (p.map (fun x => if x then ({1} : Finset ℤ) else ∅)) := fun p => finer_map _ p
  have dp := den hp
  have dq := den hq
  have dp' := den hp'
  have dq' := den hq'
  rw [fin] at dp' dq'
  rw [← hf] at dp dq
  rw [← hf'] at dp' dq'
  have hs := denotes_shared rt dp dq (by rw [hf]; decide)
  constructor
  · exact C126_scaled_boundary rt kw kw' hw hw' hr hr' ho ho' _ _ _ _ _ _ m hm hn dp dq dp' dq' hs x x'
  · intro hx hx'
    have := C126_scaled_segmentation rt kw kw' hw hw' hr hr' ho ho' _ _ _ _ _ _ m hm hn dp dq dp' dq' hs
      x x' hx hx'
    simpa using this

/-- A near miss by one unit with the default `n_t`, and the same in halves with twice that `n_t`. -/
example :
    Returns (boundarySimilarity .ascending {} (massSeg [4, 4]) (massSeg [5, 3])) (1 / 2) ∧
    Returns (boundarySimilarity .ascending { nT := 4 } (massSeg [8, 8]) (massSeg [10, 6])) (1 / 2) ∧
    Returns (segmentationSimilarity .ascending {} (massSeg [4, 4]) (massSeg [5, 3])) (13 / 14) ∧
    Returns (segmentationSimilarity .ascending { nT := 4 } (massSeg [8, 8]) (massSeg [10, 6]))
      (29 / 30) ∧
    ((1 : ℚ) - 29 / 30) * (2 * (7 + 1) - 1) = (1 - 13 / 14) * 7 :=
  ⟨⟨.dec (1 / 2), by decide +kernel, by norm_num [PyNum.val]⟩,
    ⟨.dec (1 / 2), by decide +kernel, by norm_num [PyNum.val]⟩,
    ⟨.dec (13 / 14), by decide +kernel, by norm_num [PyNum.val]⟩,
    ⟨.dec (29 / 30), by decide +kernel, by norm_num [PyNum.val]⟩, by norm_num⟩

end SegEval.Props
