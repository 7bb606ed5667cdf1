import Verif.Model.Enum
import Verif.Lemmas.Compute
import Verif.Lemmas.ML

/-!
# C128: enumerations
-/

namespace SegEval.Props

open SegEval

theorem sequential_get (s : List Name) (name : Name) (v : EnumVal) :
    dictGet (dictUpdate [] (s.zipIdx.map (fun p => (p.1, EnumVal.int p.2)))) name = some v ↔
      ∃ i : ℕ, s[i]? = some name ∧ (∀ j, i < j → s[j]? ≠ some name) ∧ v = .int i := by
  induction s using List.reverseRecOn with
  | nil => simp [dictUpdate, dictGet]
  | append_singleton s x ih =>
    have e : dictUpdate [] ((s ++ [x]).zipIdx.map (fun p => (p.1, EnumVal.int p.2))) =
        dictSet (dictUpdate [] (s.zipIdx.map (fun p => (p.1, EnumVal.int p.2)))) x (.int s.length) := by
      simp [dictUpdate, List.zipIdx_append]
    rw [e, dictGet_set]
    split
    · next h =>
      subst h
      constructor
      · rintro ⟨⟩
        refine ⟨s.length, by simp, fun j hj => ?_, rfl⟩
        rw [List.getElem?_eq_none (by simp; omega)]
        simp
      · rintro ⟨i, h1, h2, rfl⟩
        have hi : i < s.length + 1 := by simpa using (List.getElem?_eq_some_iff.1 h1).1
        rcases Nat.lt_or_ge i s.length with h | h
        · exact absurd (by simp) (h2 s.length h)
        · rw [show i = s.length by omega]
    · next h =>
      rw [ih]
      have last : (s ++ [x])[s.length]? ≠ some name := by simpa using Ne.symm h
      have early : ∀ j, j ≠ s.length → (s ++ [x])[j]? = s[j]? := by
        intro j hj
        rcases Nat.lt_or_ge j s.length with h1 | h1
        · exact List.getElem?_append_left h1
        · rw [List.getElem?_eq_none (by simp; omega), List.getElem?_eq_none h1]
      constructor
      · rintro ⟨i, h1, h2, h3⟩
        have hi := (List.getElem?_eq_some_iff.1 h1).1
        refine ⟨i, by rw [early i (by omega)]; exact h1, fun j hj => ?_, h3⟩
        by_cases hs : j = s.length
        · rw [hs]; exact last
        · rw [early j hs]; exact h2 j hj
      · rintro ⟨i, h1, h2, h3⟩
        have hi : i ≠ s.length := fun hi => last (hi ▸ h1)
        refine ⟨i, by rw [← early i hi]; exact h1, fun j hj => ?_, h3⟩
        by_cases hs : j = s.length
        · rw [hs, List.getElem?_eq_none (by omega)]; simp
        · rw [← early j hs]; exact h2 j hj

theorem enumGet_ok {e : List (Name × EnumVal)} {name : Name} {v : EnumVal} :
    enumGet e name = .ok v ↔ dictGet e name = some v := by
  unfold enumGet
  split
  · next h => simp [h]
  · next h => simp [h]

/-- C128: the members of an enumeration are exactly the names it was given. A keyword has the value it
was given with; any other name has its last place in the sequence, counted from 0. -/
theorem C128_members (s : List Name) (named : List (Name × EnumVal)) (hn : (named.map Prod.fst).Nodup)
    (name : Name) (v : EnumVal) :
    enumGet (enumMembers s named) name = .ok v ↔
      (name, v) ∈ named ∨ (∀ w, (name, w) ∉ named) ∧
        ∃ i : ℕ, s[i]? = some name ∧ (∀ j, i < j → s[j]? ≠ some name) ∧ v = .int i := by
  rw [enumGet_ok, enumMembers, dictUpdate_get _ _ hn, ← sequential_get]
  cases h : dictGet named name with
  | some w =>
    have hw := dictGet_mem h
    simp only [Option.some_or, Option.some.injEq]
    constructor
    · rintro rfl; exact .inl hw
    · rintro (h1 | ⟨h1, -⟩)
      · have := dictGet_of_mem hn h1
        rw [h] at this; exact Option.some.inj this
      · exact absurd hw (h1 w)
  | none =>
    have hw : ∀ w, (name, w) ∉ named := fun w hw => by
      have := dictGet_of_mem hn hw
      rw [h] at this; cases this
    simp only [Option.none_or]
    exact ⟨fun h1 => .inr ⟨hw, h1⟩, fun h1 => h1.elim (fun h2 => absurd h2 (hw v)) And.right⟩

/-- C128: different members have different values exactly if the given values differ and none is a place
in the sequence. -/
theorem C128_distinct (s : List Name) (named : List (Name × EnumVal)) (hs : s.Nodup)
    (hn : (named.map Prod.fst).Nodup) (hd : ∀ p ∈ named, p.1 ∉ s) :
    (∀ a b v, enumGet (enumMembers s named) a = .ok v → enumGet (enumMembers s named) b = .ok v → a = b) ↔
      (named.map Prod.snd).Nodup ∧ ∀ p ∈ named, ∀ i : ℕ, p.2 = .int i → s.length ≤ i := by
  constructor
  · intro h
    constructor
    · have hnn : named.Nodup := List.Nodup.of_map _ hn
      refine (List.nodup_map_iff_inj_on hnn).2 fun p hp q hq e => ?_
      have h1 := h p.1 q.1 p.2 ((C128_members s named hn _ _).2 (.inl hp))
        ((C128_members s named hn _ _).2 (.inl (by rw [e]; exact hq)))
      exact Prod.ext h1 e
    · intro p hp i hi
      by_contra hlt
      push Not at hlt
      have h1 := h p.1 s[i] p.2 ((C128_members s named hn _ _).2 (.inl hp))
        ((C128_members s named hn _ _).2 (.inr ⟨fun w hw => hd _ hw (List.getElem_mem hlt), i, by simp [hlt],
          fun j hj hj2 => ?_, hi⟩))
      · exact hd p hp (h1 ▸ List.getElem_mem hlt)
      · obtain ⟨h3, h4⟩ := List.getElem?_eq_some_iff.1 hj2
        have := (List.Nodup.getElem_inj_iff hs).1 h4
        omega
  · rintro ⟨h1, h2⟩ a b v ha hb
    rw [C128_members s named hn] at ha hb
    rcases ha with ha | ⟨-, i, ha, -, rfl⟩
    · rcases hb with hb | ⟨-, j, hb, -, rfl⟩
      · exact congrArg Prod.fst
          (List.inj_on_of_nodup_map h1 ha hb rfl)
      · have := h2 _ ha j rfl
        have := (List.getElem?_eq_some_iff.1 hb).1
        omega
    · rcases hb with hb | ⟨-, j, hb, -, e⟩
      · have := h2 _ hb i rfl
        have := (List.getElem?_eq_some_iff.1 ha).1
        omega
      · have : i = j := by simpa using e
        subst this
        rw [ha] at hb; exact Option.some.inj hb

/-- C128 refuted in general: a keyword can share the value of a name in the sequence, and a name given
twice has its second place. -/
theorem C128_refuted :
    enumGet (enumMembers ["a".toList] [("b".toList, .int 0)]) "a".toList =
      enumGet (enumMembers ["a".toList] [("b".toList, .int 0)]) "b".toList ∧
    enumGet (enumMembers ["a".toList, "b".toList, "a".toList] []) "a".toList = .ok (.int 2) := by
  decide +kernel

/-- C128: in the enumerations of the package, different members have different values, and the name of
each member that is a string is the string itself. -/
theorem C128_package (e : List (Name × EnumVal))
    (he : e ∈ [boundaryFormatEnum, fieldEnum, segmentationTypeEnum, averageEnum]) (a b : Name) (v : EnumVal)
    (ha : enumGet e a = .ok v) :
    (enumGet e b = .ok v → a = b) ∧ ∀ t, v = .str t → t = a := by
  simp only [List.mem_cons, List.not_mem_nil, or_false] at he
  have str : ∀ named : List (Name × EnumVal), (named.map Prod.fst).Nodup → (∀ p ∈ named, p.2 = .str p.1) →
      enumGet (enumMembers [] named) a = .ok v →
      (enumGet (enumMembers [] named) b = .ok v → a = b) ∧ ∀ t, v = .str t → t = a := by
    intro named hn hp ha
    rw [C128_members [] named hn] at ha
    have ha : (a, v) ∈ named := by simpa using ha
    have h1 := hp _ ha
    constructor
    · intro hb
      rw [C128_members [] named hn] at hb
      have hb : (b, v) ∈ named := by simpa using hb
      have h2 := hp _ hb
      rw [h1] at h2
      simpa using h2
    · rintro t rfl; simpa using h1
  rcases he with rfl | rfl | rfl | rfl
  · exact str _ (by decide) (by simp) ha
  · exact str _ (by decide) (by simp) ha
  · exact str _ (by decide) (by simp) ha
  · refine ⟨fun hb => (C128_distinct ["micro".toList, "macro".toList] [] (by decide) (by simp) (by simp)).2
      ⟨by simp, by simp⟩ a b v ha hb, ?_⟩
    rintro t rfl
    have := (C128_members _ [] (by simp) _ _).1 ha
    simp at this

/-- C128: so the metrics take the plain strings for the members of `BoundaryFormat`, and every other value
is no format. -/
theorem C128_format (v : EnumVal) :
    formatOfValue v = .ok (if v = .str "position".toList then .position
      else if v = .str "mass".toList then .mass else if v = .str "sets".toList then .sets
      else if v = .str "nltk".toList then .nltk else .other) := by
  have g1 : enumGet boundaryFormatEnum "nltk".toList = .ok (.str "nltk".toList) := by decide +kernel
  have g2 : enumGet boundaryFormatEnum "sets".toList = .ok (.str "sets".toList) := by decide +kernel
  have g3 : enumGet boundaryFormatEnum "mass".toList = .ok (.str "mass".toList) := by decide +kernel
  have g4 : enumGet boundaryFormatEnum "position".toList = .ok (.str "position".toList) := by decide +kernel
  by_cases h1 : v = .str "nltk".toList
  · rw [h1]; decide +kernel
  by_cases h2 : v = .str "sets".toList
  · rw [h2]; decide +kernel
  by_cases h3 : v = .str "mass".toList
  · rw [h3]; decide +kernel
  by_cases h4 : v = .str "position".toList
  · rw [h4]; decide +kernel
  rw [if_neg h4, if_neg h3, if_neg h2, if_neg h1]
  simp only [formatOfValue, firstMember, isMember, g1, g2, g3, g4, decide_eq_false h1, decide_eq_false h2,
    decide_eq_false h3, decide_eq_false h4]

/-- C128: averages are told apart by 0 and 1, not by their names. -/
theorem C128_average (v : EnumVal) :
    averageOfValue v = .ok (if v = .int 0 then .micro else if v = .int 1 then .macro else .other) := by
  have g1 : enumGet averageEnum "micro".toList = .ok (.int 0) := by decide +kernel
  have g2 : enumGet averageEnum "macro".toList = .ok (.int 1) := by decide +kernel
  simp only [averageOfValue, firstMember, isMember, g1, g2]
  by_cases h1 : v = .int 0
  · simp [h1]
  by_cases h2 : v = .int 1
  · simp [h2]
  simp [h1, h2]

/-- An enumeration of both kinds that meets the hypotheses of `C128_distinct`, and one of the package. -/
example :
    (enumMembers ["a".toList, "b".toList] [("c".toList, .int 2), ("d".toList, .str "b".toList)]) =
      [("a".toList, .int 0), ("b".toList, .int 1), ("c".toList, .int 2), ("d".toList, .str "b".toList)] ∧
    formatOfValue (.str "mass".toList) = .ok .mass ∧ averageOfValue (.str "micro".toList) = .ok .other := by
  decide +kernel

end SegEval.Props
