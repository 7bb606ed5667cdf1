import Verif.Spec.AnyArgs
import Verif.Lemmas.Call
import Verif.Lemmas.Metric

/-!
# Lemmas about values that do not fit the declared format
-/

namespace SegEval

open Spec

section Runs

variable {α β : Type _} [DecidableEq α] [DecidableEq β]

theorem runLengthsAux_map {f : α → β} (cur : α) (n : ℕ) (l : List α)
    (hf : ∀ x ∈ cur :: l, ∀ y ∈ cur :: l, f x = f y → x = y) :
    runLengthsAux (f cur) n (l.map f) = runLengthsAux cur n l := by
  induction l generalizing cur n with
  | nil => rfl
  | cons y ys ih =>
    simp only [List.map_cons, runLengthsAux]
    by_cases h : y = cur
    · subst h
      rw [if_pos rfl, if_pos rfl]
      exact ih _ _ (fun x hx z hz => hf x (List.mem_cons_of_mem _ hx) z (List.mem_cons_of_mem _ hz))
    · rw [if_neg h, if_neg (fun he => h (hf _ (by simp) _ (by simp) he))]
      rw [ih _ _ (fun x hx z hz => hf x (List.mem_cons_of_mem _ hx) z (List.mem_cons_of_mem _ hz))]

theorem runLengths_map {f : α → β} {l : List α} (hf : ∀ x ∈ l, ∀ y ∈ l, f x = f y → x = y) :
    runLengths (l.map f) = runLengths l := by
  cases l with
  | nil => rfl
  | cons x xs => exact runLengthsAux_map x 1 xs hf

end Runs

theorem runLengthsAux_eq (cur : ℤ) (n : ℕ) (l : List ℤ) : runLengthsAux cur n l = runsAux cur n l := by
  induction l generalizing cur n with
  | nil => rfl
  | cons y ys ih => simp only [runLengthsAux, runsAux, ih]

theorem runLengths_eq (l : List ℤ) : runLengths l = runs l := by
  cases l with
  | nil => rfl
  | cons x xs => exact runLengthsAux_eq x 1 xs

theorem numbered_masses {φ : Label → ℤ} {x : SeqArg}
    (hf : ∀ e ∈ x.elements, ∀ e' ∈ x.elements, φ e = φ e' → e = e') :
    toBString .position (numbered φ x) = anyBString .position x := by
  have h : (x.elements.map (fun e => (⟨φ e, 0⟩ : Obj))).map Obj.val = x.elements.map φ := by
    rw [List.map_map]; rfl
  simp only [numbered, toBString, anyBString, convertPositionsToMasses]
  rw [h, ← runLengths_eq, runLengths_map hf]

theorem anyBStrings_of {fmt : BoundaryFormat} (h : fmt ≠ .sets) (a b : SeqArg) :
    anyBStrings fmt a b =
      match anyBString fmt a with
      | .error e => .error e
      | .ok sa =>
        match anyBString fmt b with
        | .error e => .error e
        | .ok sb => .ok (sa, sb) := by
  cases fmt with
  | sets => exact absurd rfl h
  | _ => rfl

theorem boundary_of_strings {rt : Runtime} {kw : SimKw} {a b : Seg} {sa sb : BString}
    (h : toBStrings kw.boundaryFormat a b = .ok (sa, sb)) :
    boundarySimilarity rt { kw with boundaryFormat := .sets } (.sets sa) (.sets sb) = boundarySimilarity rt kw a b := by
  have e : boundaryStatistics rt .sets kw.nT kw.weight (.sets sa) (.sets sb) =
      boundaryStatistics rt kw.boundaryFormat kw.nT kw.weight a b := by
    unfold boundaryStatistics
    rw [h]
    rfl
  unfold boundarySimilarity
  simp only [e]

theorem segmentation_of_strings {rt : Runtime} {kw : SimKw} {a b : Seg} {sa sb : BString}
    (h : toBStrings kw.boundaryFormat a b = .ok (sa, sb)) :
    segmentationSimilarity rt { kw with boundaryFormat := .sets } (.sets sa) (.sets sb) =
      segmentationSimilarity rt kw a b := by
  have e : boundaryStatistics rt .sets kw.nT kw.weight (.sets sa) (.sets sb) =
      boundaryStatistics rt kw.boundaryFormat kw.nT kw.weight a b := by
    unfold boundaryStatistics
    rw [h]
    rfl
  unfold segmentationSimilarity
  simp only [e]

/-- Both similarity metrics are found from the conversion. -/
theorem similarity_any {rt : Runtime} {kw : SimKw} {x y : SeqArg} {a b : Seg}
    (h : anyBStrings kw.boundaryFormat x y = toBStrings kw.boundaryFormat a b) :
    boundarySimilarityAny rt kw x y = boundarySimilarity rt kw a b ∧
      segmentationSimilarityAny rt kw x y = segmentationSimilarity rt kw a b := by
  unfold boundarySimilarityAny segmentationSimilarityAny
  rw [h]
  cases hs : toBStrings kw.boundaryFormat a b with
  | error e =>
    constructor
    · unfold boundarySimilarity boundaryStatistics; rw [hs]
    · unfold segmentationSimilarity boundaryStatistics; rw [hs]
  | ok p => exact ⟨boundary_of_strings hs, segmentation_of_strings hs⟩

/-- The conversion of a segmentation that Model/Similarity covers. -/
theorem any_of_seg {fmt : BoundaryFormat} (hs : fmt ≠ .sets) {a : Seg} (h : toBString fmt a ≠ .error .unmodelled) :
    anyBString fmt (.seg a) = toBString fmt a := by
  cases fmt <;> cases a <;> first
    | rfl
    | exact absurd rfl h
    | exact absurd rfl hs
    | skip
  simp only [anyBString, toBString, SeqArg.elements, convertPositionsToMasses]
  rename_i t l
  have e : l.map (fun x => Label.int x.val) = (l.map Obj.val).map Label.int := by rw [List.map_map]; rfl
  rw [e, runLengths_map (fun x _ y _ h => by cases h; rfl), runLengths_eq]

theorem similarity_seg {rt : Runtime} {kw : SimKw} {a b : Seg}
    (ha : toBString kw.boundaryFormat a ≠ .error .unmodelled) (hb : toBString kw.boundaryFormat b ≠ .error .unmodelled) :
    boundarySimilarityAny rt kw (.seg a) (.seg b) = boundarySimilarity rt kw a b ∧
      segmentationSimilarityAny rt kw (.seg a) (.seg b) = segmentationSimilarity rt kw a b := by
  by_cases hs : kw.boundaryFormat = .sets
  · rw [hs] at ha hb
    cases a with
    | ints _ _ => exact absurd rfl ha
    | str _ => exact absurd rfl ha
    | sets sa =>
      cases b with
      | ints _ _ => exact absurd rfl hb
      | str _ => exact absurd rfl hb
      | sets sb =>
        by_cases hl : sa.length = sb.length
        · apply similarity_any
          rw [hs]
          simp [anyBStrings, SeqArg.elements, SeqArg.asSets, hl, toBStrings, toBString]
        · have e : anyBStrings kw.boundaryFormat (.seg (.sets sa)) (.seg (.sets sb)) =
              .error .segmentationMetricError := by
            rw [hs]
            simp [anyBStrings, SeqArg.elements, hl]
          have e' : boundaryStatistics rt kw.boundaryFormat kw.nT kw.weight (.sets sa) (.sets sb) =
              .error .segmentationMetricError := by
            rw [hs]
            simp [boundaryStatistics, toBStrings, toBString, statisticsOfStrings, hl]
          unfold boundarySimilarityAny segmentationSimilarityAny boundarySimilarity segmentationSimilarity
          rw [e, e']
          exact ⟨rfl, rfl⟩
  · apply similarity_any
    rw [anyBStrings_of hs, any_of_seg hs ha, any_of_seg hs hb]
    rfl

theorem asSets_none {x : SeqArg} (h : ¬ Fits .sets x) : x.asSets = none := by
  cases x with
  | seg s =>
    cases s with
    | sets l =>
      exact absurd (fun e he => by
        obtain ⟨s, _, rfl⟩ := List.mem_map.1 he
        exact ⟨s, rfl⟩) h
    | ints t l =>
      cases l with
      | nil => exact absurd (fun e he => by cases he) h
      | cons y l => rfl
    | str l =>
      cases l with
      | nil => exact absurd (fun e he => by cases he) h
      | cons y l => rfl
  | keys l =>
    cases l with
    | nil => exact absurd (fun e he => by cases he) h
    | cons y l => rfl

theorem any_error {fmt : BoundaryFormat} {x : SeqArg} (hs : fmt ≠ .sets) (h : ¬ Fits fmt x) :
    ∃ e, anyBString fmt x = .error e := by
  cases fmt with
  | sets => exact absurd rfl hs
  | position => exact absurd trivial h
  | other => exact ⟨_, rfl⟩
  | nltk =>
    cases x with
    | keys l => exact ⟨_, rfl⟩
    | seg s =>
      cases s with
      | str s => exact absurd ⟨s, rfl⟩ h
      | ints _ _ => exact ⟨_, rfl⟩
      | sets _ => exact ⟨_, rfl⟩
  | mass =>
    have hne : x.elements ≠ [] := by
      intro he
      refine h ?_
      intro e hm
      rw [he] at hm
      cases hm
    cases x with
    | keys l => exact ⟨.typeError, by simp only [anyBString]; rw [if_neg hne]⟩
    | seg s =>
      cases s with
      | ints t l =>
        refine absurd ?_ h
        intro e he
        obtain ⟨s, _, rfl⟩ := List.mem_map.1 he
        exact ⟨_, rfl⟩
      | str s => exact ⟨.typeError, by simp only [anyBString]; rw [if_neg hne]⟩
      | sets s => exact ⟨.typeError, by simp only [anyBString]; rw [if_neg hne]⟩

theorem anyBStrings_error {fmt : BoundaryFormat} {x y : SeqArg} (h : ¬ Fits fmt x ∨ ¬ Fits fmt y) :
    ∃ e, anyBStrings fmt x y = .error e := by
  by_cases hs : fmt = .sets
  · subst hs
    unfold anyBStrings
    simp only
    by_cases hl : x.elements.length ≠ y.elements.length
    · exact ⟨_, by rw [if_pos hl]⟩
    · rw [if_neg hl]
      rcases h with h | h
      · rw [asSets_none h]; exact ⟨_, rfl⟩
      · rw [asSets_none h]
        cases x.asSets <;> exact ⟨_, rfl⟩
  · rw [anyBStrings_of hs]
    cases hx : anyBString fmt x with
    | error e => exact ⟨e, rfl⟩
    | ok s =>
      rcases h with h | h
      · obtain ⟨e, he⟩ := any_error hs h
        rw [hx] at he
        cases he
      · obtain ⟨e, he⟩ := any_error hs h
        rw [he]
        exact ⟨e, rfl⟩

theorem positions_error {fmt : BoundaryFormat} {x : SeqArg} (h : ¬ Fits fmt x ∨ fmt = .sets) :
    ∃ e, anyPositions fmt x = .error e := by
  by_cases hs : fmt = .sets
  · subst hs; exact ⟨_, rfl⟩
  · have h : ¬ Fits fmt x := by tauto
    cases fmt with
    | sets => exact absurd rfl hs
    | position => exact absurd trivial h
    | other => exact ⟨_, rfl⟩
    | nltk =>
      cases x with
      | keys l => exact ⟨_, rfl⟩
      | seg s =>
        cases s with
        | str s => exact absurd ⟨s, rfl⟩ h
        | ints _ _ => exact ⟨_, rfl⟩
        | sets _ => exact ⟨_, rfl⟩
    | mass =>
      have hne : x.elements ≠ [] := by
        intro he
        refine h ?_
        intro e hm
        rw [he] at hm
        cases hm
      cases x with
      | keys l => exact ⟨.typeError, by simp only [anyPositions]; rw [if_neg hne]⟩
      | seg s =>
        cases s with
        | ints t l =>
          refine absurd ?_ h
          intro e he
          obtain ⟨s, _, rfl⟩ := List.mem_map.1 he
          exact ⟨_, rfl⟩
        | str s => exact ⟨.typeError, by simp only [anyPositions]; rw [if_neg hne]⟩
        | sets s => exact ⟨.typeError, by simp only [anyPositions]; rw [if_neg hne]⟩

theorem window_error {kw : WinKw} {x y : SeqArg}
    (h : kw.boundaryFormat = .sets ∨ ¬ Fits kw.boundaryFormat x ∨ ¬ Fits kw.boundaryFormat y) :
    (∃ e, windowDiffAny kw x y = .error e) ∧ ∃ e, pkAny kw x y = .error e := by
  unfold windowDiffAny pkAny
  cases hy : anyPositions kw.boundaryFormat y with
  | error e => exact ⟨⟨e, rfl⟩, e, rfl⟩
  | ok r =>
    obtain ⟨e, he⟩ : ∃ e, anyPositions kw.boundaryFormat x = .error e := by
      rcases h with h | h | h
      · exact positions_error (.inr h)
      · exact positions_error (.inl h)
      · obtain ⟨e, he⟩ := positions_error (.inl h)
        rw [hy] at he
        cases he
    rw [he]
    exact ⟨⟨e, rfl⟩, e, rfl⟩

end SegEval
