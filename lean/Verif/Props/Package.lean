import Verif.Lemmas.Package
import Verif.Spec.Package

/-!
# C93, C94: the names and modules of the package
-/

namespace SegEval.Props

open SegEval Spec Package

/-- The names that a statement defines. -/
def definedNames : Stmt → List String
  | .define xs => xs
  | .fromImport _ _ => []

theorem exported_iff (x : String) : x ∈ exported ↔ x ∈ publicNames := by
  constructor
  · intro h
    have hall : ∀ y ∈ exported, y ∈ publicNames := by decide +kernel
    exact hall x h
  · intro h
    have hall : ∀ y ∈ publicNames, y ∈ exported := by decide +kernel
    exact hall x h

theorem sourced_iff (m : ModName) : HasSource m ↔ (dictGet sources m).isSome := by
  constructor
  · rintro ⟨body, hb⟩
    have hall : ∀ e ∈ sources, (dictGet sources e.1).isSome := by decide +kernel
    exact hall _ hb
  · intro h
    obtain ⟨body, hb, _⟩ := mem_sources h
    exact ⟨body, hb⟩

theorem uses_import (m : ModName) :
    (Uses (.importModule m) → Good [] (importModule fresh m).1) ∧
      (¬ Uses (.importModule m) → (importModule fresh m).1 = fresh) := by
  refine ⟨?_, ?_⟩
  · rintro ⟨part, rest, rfl, hp⟩
    have hall : ∀ p ∈ parts, (dictGet sources ["segeval", p]).isSome ∧ p ≠ "compute" := by
      decide +kernel
    obtain ⟨h1, h2⟩ := hall part hp
    exact cold_good h1 (by simp [h2]) rfl rest.length rest le_rfl
  · intro h
    match m with
    | [] => simp only [importModule, List.length_nil, importFuel]; rfl
    | [a] =>
      simp only [importModule, List.length_singleton]
      rw [show 200 + 1 = 200 + 1 from rfl, importFuel]
      cases dictGet fresh [a] <;> rfl
    | a :: b :: rest =>
      by_cases ha : a = "segeval"
      · subst ha
        have hb : b ∉ parts := fun hc => h ⟨b, rest, rfl, hc⟩
        have herr : ∃ e, importFuel (200 + ["segeval", b].length) fresh ["segeval", b] =
            (fresh, .error e) := by
          by_cases hc : b = "compute"
          · subst hc
            exact ⟨_, cold_compute⟩
          · have hs : dictGet sources ["segeval", b] = none := by
              cases hs : dictGet sources ["segeval", b] with
              | none => rfl
              | some body =>
                have hall : ∀ e ∈ sources, e.1.length = 2 → e.1.getLastD "" ∈ "compute" :: parts := by
                  decide +kernel
                have := hall _ (dictGet_mem hs) rfl
                simp only [List.getLastD_cons, List.getLastD_nil, List.mem_cons] at this
                rcases this with e | e
                · exact absurd e hc
                · exact absurd e hb
            refine ⟨.moduleNotFound ["segeval", b], ?_⟩
            rw [show 200 + ["segeval", b].length = (200 + 1) + 1 from rfl,
              importFuel_step _ _ (fresh_mem (by simp)) (by simp)]
            have : importFuel (200 + 1) fresh (["segeval", b] : ModName).dropLast = (fresh, .ok ()) := by
              rfl
            rw [this]
            simp only [fresh_mem (show ["segeval", b] ≠ ["segeval"] by simp), loadModule, hs]
        obtain ⟨e, he⟩ := herr
        have := cold_error (by simp) he rest.length rest le_rfl
        simp only [importModule]
        exact congrArg Prod.fst this
      · have herr : importFuel (200 + [a].length) fresh [a] = (fresh, .error (.moduleNotFound [a])) := by
          simp only [List.length_singleton, importFuel, fresh_mem (show [a] ≠ ["segeval"] by simp [ha])]
        have := cold_error (by simp) herr (b :: rest).length (b :: rest) le_rfl
        simp only [importModule]
        exact congrArg Prod.fst this

/-- A program that has used a part of the package has loaded the modules that all parts share; one
that has not has loaded nothing. -/
theorem after_state (history : List Action) :
    (Used history → Good [] (after history)) ∧ (¬ Used history → after history = fresh) := by
  have good_run : ∀ (a : Action) (st : State), Good [] st → Good [] (a.run st) := by
    intro a st hg
    cases a with
    | getAttribute x =>
      by_cases hx : x ∈ exported
      · obtain ⟨m, _, hm⟩ := origin hx
        obtain ⟨st', h1, h2⟩ := getAttribute_good hg hm
        simp only [Action.run, h1]
        exact h2
      · simp only [Action.run, getAttribute_other hx]
        exact hg
    | importModule m =>
      obtain ⟨st', h1, h2⟩ := import_any m.length m st le_rfl hg
      simp only [Action.run, importModule, h1]
      exact h2
    | importAll =>
      obtain ⟨st', h1, h2⟩ := importAll_good exported st hg (fun _ h => h)
      simp only [exported] at h1
      simp only [Action.run, h1]
      exact h2
  have cold_run : ∀ a : Action, (Uses a → Good [] (a.run fresh)) ∧ (¬ Uses a → a.run fresh = fresh) := by
    intro a
    cases a with
    | getAttribute x =>
      refine ⟨?_, ?_⟩
      · rintro ⟨h1, h2⟩
        obtain ⟨m, _, hm⟩ := origin ((exported_iff x).2 h1)
        exact good_of_check (cold_exports _ hm h2).2
      · intro h
        by_cases hx : x ∈ exported
        · have : x = "summarize" := by
            by_contra hc
            exact h ⟨(exported_iff x).1 hx, hc⟩
          subst this
          exact congrArg Prod.fst cold_summarize
        · exact getAttribute_other hx
    | importModule m => exact uses_import m
    | importAll =>
      refine ⟨fun _ => good_of_check (by decide +kernel), fun h => absurd trivial h⟩
  have run_good : ∀ (h : List Action) (st : State), Good [] st → Good [] (h.foldl Action.run st) := by
    intro h
    induction h with
    | nil => intro st hg; exact hg
    | cons a as ih => intro st hg; exact ih _ (good_run a st hg)
  unfold after
  induction history with
  | nil => exact ⟨fun ⟨a, ha, _⟩ => absurd ha (by simp), fun _ => rfl⟩
  | cons a as ih =>
    simp only [List.foldl_cons]
    by_cases ha : Uses a
    · refine ⟨fun _ => run_good as _ ((cold_run a).1 ha), fun h => absurd ⟨a, by simp, ha⟩ h⟩
    · rw [(cold_run a).2 ha]
      refine ⟨?_, ?_⟩
      · rintro ⟨b, hb, hu⟩
        rcases List.mem_cons.1 hb with rfl | hb
        · exact absurd hu ha
        · exact ih.1 ⟨b, hb, hu⟩
      · intro h
        exact ih.2 (fun ⟨b, hb, hu⟩ => h ⟨b, List.mem_cons_of_mem _ hb, hu⟩)

theorem defines_origin {x : String} {m : ModName} (h : (x, m) ∈ objectOrigins) : Defines m x := by
  have hall : ∀ e ∈ objectOrigins, ∃ s ∈ sources, s.1 = e.2 ∧ ∃ t ∈ s.2, e.1 ∈ definedNames t := by
    decide +kernel
  obtain ⟨s, hs, rfl, t, ht, hx⟩ := hall _ h
  cases t with
  | define ys => exact ⟨s.2, hs, ys, ht, hx⟩
  | fromImport d names => cases hx

/-- C93: every exported name other than `summarize` is the object that the source of one module
defines by that name, whatever was used, imported or failed before. -/
theorem C93_exports (x : String) (hx : x ∈ publicNames) (hs : x ≠ "summarize") :
    ∃ m, Defines m x ∧
      ∀ history, (getAttribute (after history) x).2 = .ok (.value m x) := by
  obtain ⟨m, _, hm⟩ := origin ((exported_iff x).2 hx)
  refine ⟨m, defines_origin hm, ?_⟩
  intro history
  obtain ⟨h1, h2⟩ := after_state history
  by_cases h : Used history
  · obtain ⟨st, h3, _⟩ := getAttribute_good (h1 h) hm
    rw [h3]
  · rw [h2 h]
    exact (cold_exports _ hm hs).1

example : (getAttribute (after [.getAttribute "summarize", .importModule ["segeval", "window", "pk"],
    .getAttribute "nothing"]) "pk").2 = .ok (.value ["segeval", "window", "pk"] "pk") := by
  decide +kernel

/-- C93 for `summarize`: it is the function of `segeval/compute.py` if and only if some other part
of the package was used before. -/
theorem C93_summarize (history : List Action) :
    (Used history → (getAttribute (after history) "summarize").2 =
      .ok (.value ["segeval", "compute"] "summarize")) ∧
    (¬ Used history → (getAttribute (after history) "summarize").2 =
      .error (.cannotImport ["segeval", "compute"] "compute_pairwise_values")) := by
  obtain ⟨h1, h2⟩ := after_state history
  refine ⟨?_, ?_⟩
  · intro h
    have hm : ("summarize", ["segeval", "compute"]) ∈ objectOrigins := by decide +kernel
    obtain ⟨st, h3, _⟩ := getAttribute_good (h1 h) hm
    rw [h3]
  · intro h
    rw [h2 h, cold_summarize]

/-- C93 does not hold for all exported names: in a program whose first use of the package is
`segeval.summarize`, that use raises, and so does the next attempt. -/
theorem C93_refuted : "summarize" ∈ publicNames ∧
    (getAttribute (after []) "summarize").2 =
      .error (.cannotImport ["segeval", "compute"] "compute_pairwise_values") ∧
    (getAttribute (after [.getAttribute "summarize"]) "summarize").2 =
      .error (.cannotImport ["segeval", "compute"] "compute_pairwise_values") ∧
    (getAttribute (after [.getAttribute "Dataset"]) "summarize").2 =
      .ok (.value ["segeval", "compute"] "summarize") := by
  decide +kernel

/-- C93: what is not exported is not an attribute, unless it is a part of the package, which is one
once it is loaded; and asking for it changes nothing. -/
theorem C93_others (x : String) (hx : x ∉ publicNames) (ha : x ∉ packageAttributes)
    (history : List Action) :
    (getAttribute (after history) x).1 = after history ∧
      ((getAttribute (after history) x).2 = .error (.attribute x) ∨
        x ∈ "compute" :: parts ∧
          (getAttribute (after history) x).2 = .ok (.module ["segeval", x])) := by
  have hx' : x ∉ exported := fun h => hx ((exported_iff x).1 h)
  refine ⟨getAttribute_other hx', ?_⟩
  have ho : dictGet objectOrigins x = none := by
    cases h : dictGet objectOrigins x with
    | none => rfl
    | some m => exact absurd (List.mem_map.2 ⟨_, dictGet_mem h, rfl⟩) hx'
  cases hl : (dictGet (after history) ["segeval"]).bind (dictGet · x) with
  | none =>
    left
    simp only [getAttribute, hl, packageGetattr, ho]
  | some v =>
    right
    have hv : finalVal ["segeval"] x = some v := by
      obtain ⟨h1, h2⟩ := after_state history
      by_cases h : Used history
      · exact (h1 h).package x v hl
      · rw [h2 h] at hl
        have hall : ∀ e ∈ (dictGet fresh ["segeval"]).getD [], e.1 ∈ packageAttributes := by
          decide +kernel
        exact absurd (hall _ (dictGet_mem hl)) ha
    have hall : ∀ e ∈ (dictGet fullState ["segeval"]).getD [],
        e.1 ∈ exported ∨ e.1 ∈ packageAttributes ∨
          e.1 ∈ "compute" :: parts ∧ e.2 = .module ["segeval", e.1] := by
      decide +kernel
    have hmem : (x, v) ∈ (dictGet fullState ["segeval"]).getD [] := by
      simp only [finalVal, lookup] at hv
      cases hp : dictGet fullState ["segeval"] with
      | none => rw [hp] at hv; cases hv
      | some ns => rw [hp] at hv; exact dictGet_mem hv
    rcases hall _ hmem with h | h | h
    · exact absurd h hx'
    · exact absurd h ha
    · refine ⟨h.1, ?_⟩
      simp only [getAttribute, hl]
      rw [show v = _ from h.2]

example : (getAttribute (after []) "window").2 = .error (.attribute "window") ∧
    (getAttribute (after [.getAttribute "pk"]) "window").2 = .ok (.module ["segeval", "window"]) := by
  decide +kernel

/-- C93: `dir(segeval)` lists the exported names and ten attributes of the package, and every name
it lists is an attribute, except that `summarize` needs an earlier use. -/
theorem C93_dir : (packageDir.Perm (publicNames ++ ["__file__", "__path__", "__doc__", "__all__",
      "__docformat__", "__name__", "__path__", "__package__", "__project__", "__version__"])) ∧
    ∀ x ∈ packageDir, x ≠ "summarize" → ∀ history,
      ∃ v, (getAttribute (after history) x).2 = .ok v := by
  refine ⟨by decide +kernel, ?_⟩
  intro x hx hs history
  have hall : ∀ y ∈ packageDir, y ∈ exported ∨ y ∈ packageAttributes := by decide +kernel
  rcases hall x hx with h | h
  · obtain ⟨m, _, hm⟩ := C93_exports x ((exported_iff x).1 h) hs
    exact ⟨_, hm history⟩
  · have hl : ∃ v, lookup (after history) ["segeval"] x = some v := by
      obtain ⟨h1, h2⟩ := after_state history
      by_cases hu : Used history
      · rw [(h1 hu).own x h]
        have hall : ∀ y ∈ packageAttributes, (finalVal ["segeval"] y).isSome := by decide +kernel
        exact Option.isSome_iff_exists.1 (hall x h)
      · rw [h2 hu]
        have hall : ∀ y ∈ packageAttributes, (lookup fresh ["segeval"] y).isSome := by decide +kernel
        exact Option.isSome_iff_exists.1 (hall x h)
    obtain ⟨v, hv⟩ := hl
    simp only [lookup] at hv
    exact ⟨v, by simp only [getAttribute, hv]⟩

/-- C94: every module with a source file, other than `segeval.compute`, can be imported at any
time, and then has the objects that its source defines. -/
theorem C94_import (m : ModName) (hm : HasSource m) (hc : m ≠ ["segeval", "compute"])
    (history : List Action) :
    (importModule (after history) m).2 = .ok () ∧
      ∀ x, Defines m x → Holds (importModule (after history) m).1 m x (.value m x) := by
  have hs := (sourced_iff m).1 hm
  have key : ∃ st, importModule (after history) m = (st, .ok ()) ∧ Good [] st ∧
      (dictGet st m).isSome := by
    obtain ⟨h1, h2⟩ := after_state history
    by_cases h : Used history
    · obtain ⟨st, i, g, _, hmem⟩ := import_good (h1 h) hs (fuel := 200 + m.length) (by omega)
      exact ⟨st, i, g, hmem⟩
    · rw [h2 h]
      obtain ⟨body, hb, _⟩ := mem_sources hs
      obtain ⟨h3, h4⟩ := cold_modules _ hb hc
      have hall : ∀ e ∈ sources, e.1 ≠ ["segeval", "compute"] →
          (dictGet (importModule fresh e.1).1 e.1).isSome := by decide +kernel
      exact ⟨(importModule fresh m).1, Prod.ext rfl h3, good_of_check h4, hall _ hb hc⟩
  obtain ⟨st, hi, hg, hmem⟩ := key
  rw [hi]
  refine ⟨rfl, ?_⟩
  rintro x ⟨body, hb, xs, hxs, hx⟩
  have hall : ∀ e ∈ sources, ∀ s ∈ e.2, ∀ y ∈ definedNames s, y ∈ bound e.1 ∧ finalVal e.1 y = some (.value e.1 y) := by decide +kernel
  obtain ⟨h1, h2⟩ := hall _ hb _ hxs x hx
  have := hg.complete m hmem (by simp) x h1
  rw [h2] at this
  obtain ⟨ns, hns⟩ := Option.isSome_iff_exists.1 hmem
  refine ⟨ns, hns, ?_⟩
  simp only [lookup, hns] at this
  exact this

example : HasSource ["segeval", "similarity", "weight"] ∧
    Defines ["segeval", "similarity", "weight"] "weight_t" :=
  ⟨(sourced_iff _).2 (by decide +kernel), defines_origin (by decide +kernel)⟩

/-- C94 for `segeval.compute`: it can be imported if and only if some other part of the package was
used before.  A program that begins with `from segeval.compute import summarize` ends with
`ImportError`. -/
theorem C94_compute (history : List Action) :
    (Used history → (importModule (after history) ["segeval", "compute"]).2 = .ok ()) ∧
    (¬ Used history → (importModule (after history) ["segeval", "compute"]).2 =
      .error (.cannotImport ["segeval", "compute"] "compute_pairwise_values")) := by
  obtain ⟨h1, h2⟩ := after_state history
  refine ⟨fun h => ?_, fun h => ?_⟩
  · obtain ⟨st, i, _⟩ := import_good (h1 h) (m := ["segeval", "compute"]) (by decide +kernel)
      (fuel := 200 + ["segeval", "compute"].length) (by decide)
    rw [importModule, i]
  · rw [h2 h]
    exact congrArg Prod.snd cold_compute

/-- C94: `from segeval import *` succeeds at any time, in the order in which Python 3.7 and later
keep the names; in the arbitrary order of older versions it succeeds unless `summarize` is the first
name and nothing else of the package was used. -/
theorem C94_all (history : List Action) :
    (importAll (after history) (objectOrigins.map Prod.fst)).2 = .ok () ∧
    ∀ names : List String, names.Perm publicNames → names.head? ≠ some "summarize" ∨ Used history →
      (importAll (after history) names).2 = .ok () := by
  have key : ∀ names : List String, (∀ x ∈ names, x ∈ exported) →
      names.head? ≠ some "summarize" ∨ Used history → (importAll (after history) names).2 = .ok () := by
    intro names hn hh
    obtain ⟨h1, h2⟩ := after_state history
    by_cases h : Used history
    · obtain ⟨st, h3, _⟩ := importAll_good names _ (h1 h) hn
      rw [h3]
    · rw [h2 h]
      cases names with
      | nil => rfl
      | cons x xs =>
        have hx : x ≠ "summarize" := by
          rintro rfl
          rcases hh with hh | hh
          · exact hh rfl
          · exact h hh
        obtain ⟨m, _, hm⟩ := origin (hn x (List.mem_cons_self ..))
        obtain ⟨h3, h4⟩ := cold_exports _ hm hx
        simp only at h3 h4
        obtain ⟨st, h5, _⟩ := importAll_good xs _ (good_of_check h4)
          (fun y hy => hn y (List.mem_cons_of_mem _ hy))
        have h6 : getAttribute fresh x = ((getAttribute fresh x).1, .ok (.value m x)) :=
          Prod.ext rfl h3
        rw [importAll, h6]
        simp only
        rw [h5]
  refine ⟨key _ (fun _ h => h) (Or.inl (by decide +kernel)), ?_⟩
  intro names hp hh
  exact key names (fun x hx => (exported_iff x).2 (hp.subset hx)) hh

/-- C94: with `summarize` as the first name, `from segeval import *` raises in a program that has
used nothing else. -/
theorem C94_all_refuted (names : List String) (history : List Action) (h : ¬ Used history)
    (hh : names.head? = some "summarize") :
    (importAll (after history) names).2 =
      .error (.cannotImport ["segeval", "compute"] "compute_pairwise_values") := by
  rw [(after_state history).2 h]
  cases names with
  | nil => cases hh
  | cons x xs =>
    simp only [List.head?_cons, Option.some.injEq] at hh
    subst hh
    rw [importAll, cold_summarize]

example : ¬ Used [.getAttribute "summarize", .importModule ["segeval", "compute"],
    .importModule ["json"], .getAttribute "window"] := by
  rintro ⟨a, ha, hu⟩
  simp only [List.mem_cons, List.not_mem_nil, or_false] at ha
  rcases ha with rfl | rfl | rfl | rfl
  · exact hu.2 rfl
  · obtain ⟨p, r, h, hp⟩ := hu
    cases h
    revert hp
    decide
  · obtain ⟨p, r, h, hp⟩ := hu
    simp at h
  · exact absurd hu.1 (by decide +kernel)

end SegEval.Props
