import Verif.Lemmas.Format

/-!
# C01–C04: format conversions
-/

namespace SegEval.Props

open SegEval Spec

/-- C01: masses survive the trip through positions, which has one label per unit. -/
theorem C01_masses_roundtrip (ms : List ℤ) (h : ∀ m ∈ ms, 0 < m) :
    convertPositionsToMasses (convertMassesToPositions ms) = ms ∧
    ((convertMassesToPositions ms).length : ℤ) = ms.sum := by
  constructor
  · by_cases hms : ms = []
    · subst hms; rfl
    · have hne : posVals 0 ms ≠ [] := by
        intro h0
        have h1 := posVals_length 0 ms h
        have h2 : 0 < ms.sum := List.sum_pos _ h hms
        rw [h0] at h1; simp at h1; omega
      show (runs (posVals 0 ms)).map Int.ofNat = ms
      rw [runs_eq _ hne, changes_posVals 0 ms h, runsPat_massPat ms h hms]
  · have := posVals_length 0 ms h
    simpa [posVals, convertMassesToPositions] using this

example : (∀ m ∈ [(2 : ℤ), 1, 3], 0 < m) ∧
    (convertMassesToPositions [2, 1, 3]).map Obj.val = [1, 1, 2, 3, 3, 3] := by decide +kernel

/-- C01, further: the labels count the segments: they start at 1, never decrease, and grow by
exactly 1 at each boundary. -/
theorem C01_position_labels (ms : List ℤ) (h : ∀ m ∈ ms, 0 < m) (before after : List ℤ) (m : ℤ)
    (hs : ms = before ++ m :: after) (u : ℕ) (h1 : before.sum ≤ u) (h2 : (u : ℤ) < before.sum + m) :
    ((convertMassesToPositions ms).map Obj.val)[u]? = some (before.length + 1) := by
  have key : ∀ (before : List ℤ) (i u : ℕ), (∀ m ∈ before, 0 < m) → before.sum ≤ u →
      (u : ℤ) < before.sum + m → (posVals i (before ++ m :: after))[u]? =
        some ((i : ℤ) + before.length + 1) := by
    intro before
    induction before with
    | nil =>
      intro i u _ _ h2
      simp only [List.sum_nil, zero_add] at h2
      rw [List.nil_append, posVals_cons, List.getElem?_append_left (by simp; omega)]
      rw [List.getElem?_replicate, if_pos (by omega)]; simp
    | cons b bs ih =>
      intro i u hp h1 h2
      have hb : 0 < b := hp b (by simp)
      have hbs : 0 ≤ bs.sum := List.sum_nonneg (fun x hx => (hp x (by simp [hx])).le)
      simp only [List.sum_cons] at h1 h2
      rw [List.cons_append, posVals_cons, List.getElem?_append_right (by simp; omega)]
      rw [ih (i + 1) _ (fun x hx => hp x (by simp [hx])) (by simp; omega) (by simp; omega)]
      push_cast [List.length_cons]
      congr 1; ring
  have := key before 0 u (fun x hx => h x (by simp [hs, hx])) h1 h2
  rw [hs]
  simpa [posVals, convertMassesToPositions] using this

example : ((convertMassesToPositions [2, 1, 3]).map Obj.val)[4]? = some 3 := by decide +kernel

/-- C02: going to masses and back keeps the number of units and every label change. -/
theorem C02_changes_preserved (l : List Obj) :
    (convertMassesToPositions (convertPositionsToMasses l)).length = l.length ∧
    ∀ i, ChangeAt ((convertMassesToPositions (convertPositionsToMasses l)).map Obj.val) i ↔
      ChangeAt (l.map Obj.val) i := by
  by_cases hl : l = []
  · subst hl; exact ⟨rfl, fun i => by simp [convertPositionsToMasses, runs,
      convertMassesToPositions, massesToPositionsFrom]⟩
  · have hv : l.map Obj.val ≠ [] := by simpa using hl
    have hr : convertPositionsToMasses l = (runsPat 1 (changes (l.map Obj.val))).map Int.ofNat := by
      rw [convertPositionsToMasses, runs_eq _ hv]
    have hpos : ∀ m ∈ convertPositionsToMasses l, 0 < m := by
      intro m hm
      rw [hr, List.mem_map] at hm
      obtain ⟨k, hk, rfl⟩ := hm
      have := runsPat_pos 1 (by omega) _ k hk
      simp only [Int.ofNat_eq_natCast]; omega
    have hc : changes (posVals 0 (convertPositionsToMasses l)) = changes (l.map Obj.val) := by
      rw [changes_posVals 0 _ hpos, hr, massPat_runsPat 1 (by omega)]; simp
    have hlen : ((convertMassesToPositions (convertPositionsToMasses l)).length : ℤ) = l.length := by
      have h1 := posVals_length 0 _ hpos
      simp only [posVals, List.length_map] at h1
      rw [convertMassesToPositions, h1, hr]
      have h2 := runsPat_sum 1 (changes (l.map Obj.val))
      rw [changes_length, List.length_map] at h2
      have h3 := List.length_pos_of_ne_nil hl
      have h4 : ((runsPat 1 (changes (l.map Obj.val))).map Int.ofNat).sum =
          (((runsPat 1 (changes (l.map Obj.val))).sum : ℕ) : ℤ) := by
        induction runsPat 1 (changes (l.map Obj.val)) with
        | nil => rfl
        | cons x xs ih => simp only [List.map_cons, List.sum_cons, ih, Int.ofNat_eq_natCast]; push_cast; rfl
      rw [h4, h2]; omega
    refine ⟨by exact_mod_cast hlen, fun i => ?_⟩
    have h5 : (convertMassesToPositions (convertPositionsToMasses l)).map Obj.val =
        posVals 0 (convertPositionsToMasses l) := rfl
    rw [h5, ← changes_getElem?, hc, changes_getElem?]

/-- C02: two label sequences have the same masses exactly when they have as many units and change
at the same places. -/
theorem C02_masses_eq_iff (l l' : List Obj) :
    convertPositionsToMasses l = convertPositionsToMasses l' ↔
      l.length = l'.length ∧ ∀ i, ChangeAt (l.map Obj.val) i ↔ ChangeAt (l'.map Obj.val) i := by
  constructor
  · intro h
    have h1 := C02_changes_preserved l
    have h2 := C02_changes_preserved l'
    rw [h] at h1
    exact ⟨h1.1.symm.trans h2.1, fun i => (h1.2 i).symm.trans (h2.2 i)⟩
  · rintro ⟨hlen, hch⟩
    by_cases hl : l = []
    · have : l' = [] := by simpa [hl, eq_comm] using hlen
      rw [hl, this]
    · have hl' : l' ≠ [] := by
        intro h0; rw [h0] at hlen; exact hl (by simpa using hlen)
      have : changes (l.map Obj.val) = changes (l'.map Obj.val) :=
        pat_ext (by simp [changes_length, hlen]) (fun i => by
          rw [changes_getElem?, changes_getElem?]; exact hch i)
      rw [convertPositionsToMasses, convertPositionsToMasses, runs_eq _ (by simpa using hl),
        runs_eq _ (by simpa using hl'), this]

/-- C02: an injective relabelling never changes the masses. -/
theorem C02_relabel (l : List Obj) (f : ℤ → ℤ) (hf : Function.Injective f) :
    convertPositionsToMasses (l.map (fun o => ⟨f o.val, o.tag⟩)) = convertPositionsToMasses l := by
  rw [C02_masses_eq_iff]
  refine ⟨by simp, fun i => ?_⟩
  simp only [ChangeAt, List.map_map, List.getElem?_map, Option.map_eq_some_iff, Function.comp]
  constructor
  · rintro ⟨x, y, ⟨a, ha, rfl⟩, ⟨b, hb, rfl⟩, hne⟩
    exact ⟨_, _, ⟨a, ha, rfl⟩, ⟨b, hb, rfl⟩, fun h => hne (by rw [h])⟩
  · rintro ⟨x, y, ⟨a, ha, rfl⟩, ⟨b, hb, rfl⟩, hne⟩
    exact ⟨_, _, ⟨a, ha, rfl⟩, ⟨b, hb, rfl⟩, fun h => hne (hf h)⟩

example : convertPositionsToMasses [⟨7, 0⟩, ⟨7, 0⟩, ⟨2, 0⟩, ⟨7, 0⟩] = [2, 1, 1] ∧
    convertPositionsToMasses [⟨1, 0⟩, ⟨1, 0⟩, ⟨2, 0⟩, ⟨3, 0⟩] = [2, 1, 1] := by decide +kernel

/-- C03: boundary strings have `sum - 1` positions and carry type 1 exactly at the inner segment
ends; no error is raised. -/
theorem C03_boundary_string (ms : List ℤ) (h : ∀ m ∈ ms, 0 < m) (hne : ms ≠ []) :
    ∃ bs, boundaryStringFromMasses ms = .ok bs ∧ (bs.length : ℤ) = ms.sum - 1 ∧
      ∀ (p : ℕ) (x : Finset ℤ), bs[p]? = some x →
        (InnerEnd ms ((p : ℤ) + 1) → x = {1}) ∧ (¬ InnerEnd ms ((p : ℤ) + 1) → x = ∅) := by
  refine ⟨_, boundaryString_eq ms h hne, ?_, ?_⟩
  · have := massPat_length ms h hne
    rw [List.length_map]; omega
  · intro p x hx
    have h1 := massPat_getElem? ms h p
    rw [List.getElem?_map, Option.map_eq_some_iff] at hx
    obtain ⟨b, hb, rfl⟩ := hx
    rw [hb, Option.some.injEq] at h1
    constructor
    · intro hi; rw [h1.2 hi]; rfl
    · intro hi
      have : b = false := by simpa using fun hc => hi (h1.1 hc)
      rw [this]; rfl

/-- C03: no masses at all give an empty boundary string. -/
theorem C03_boundary_string_nil : boundaryStringFromMasses [] = .ok [] := rfl

example : boundaryStringFromMasses [2, 1, 3] = .ok [∅, {1}, {1}, ∅, ∅] := by decide +kernel

/-- C04: NLTK strings give positive masses with one unit more than the string has characters, and
the boundary string has a boundary exactly where the string has its symbol. -/
theorem C04_nltk (c : Char) (s : List Char) :
    (∀ m ∈ convertNltkToMasses s c, 0 < m) ∧ (convertNltkToMasses s c).sum = s.length + 1 ∧
    ∃ bs, boundaryStringFromMasses (convertNltkToMasses s c) = .ok bs ∧ bs.length = s.length ∧
      ∀ (i : ℕ) (x : Char), s[i]? = some x → bs[i]? = some (if x = c then {1} else ∅) := by
  have h1 := nltk_pos c s
  have h2 := nltk_ne_nil c s
  have h3 := nltk_massPat c s
  refine ⟨h1, ?_, _, boundaryString_eq _ h1 h2, by simp [h3], ?_⟩
  · have := massPat_length _ h1 h2
    rw [h3, List.length_map] at this
    exact this.symm
  · intro i x hx
    rw [h3, List.map_map, List.getElem?_map, hx]
    simp [bset]

example : convertNltkToMasses ['0', '1', '1', '0'] = [2, 1, 2] := by decide +kernel

end SegEval.Props
