import Verif.Model.Files
import Verif.Props.Names

/-!
# C129: saving and loading by path
-/

namespace SegEval.Props

open SegEval Spec

variable {disk : Disk} {p q : List Name} {d d' : DatasetK}

theorem save_disk (r : List Name) : (saveJson disk p d).1 r =
    if canOpen disk (savePath disk p) ∧ r = savePath disk p then
      some (.file (outputLinearMassJson d).text) else disk r := by
  unfold saveJson
  by_cases h : canOpen disk (savePath disk p) = true <;> simp [h]

theorem save_folder (h : disk p = some .folder) :
    savePath disk p = p ++ ["output.json".toList] := if_pos h

theorem save_file (h : disk p ≠ some .folder) : savePath disk p = p := if_neg h

/-- Saving neither makes nor removes a folder. -/
theorem save_folders (r : List Name) :
    (saveJson disk p d).1 r = some .folder ↔ disk r = some .folder := by
  rw [save_disk]
  split
  · next h =>
    obtain ⟨h1, rfl⟩ := h
    simp only [canOpen, Bool.and_eq_true, decide_eq_true_eq] at h1
    simp [h1.1]
  · rfl

theorem save_path_same (r : List Name) : savePath (saveJson disk p d).1 r = savePath disk r := by
  unfold savePath
  simp only [save_folders]

theorem save_open_same (r : List Name) : canOpen (saveJson disk p d).1 r = canOpen disk r := by
  unfold canOpen
  simp only [save_folders, ne_eq]

/-- C129: saving changes one file at most: the path, or `output.json` in it if it is a folder. -/
theorem C129_only (r : List Name) (h : (saveJson disk p d).1 r ≠ disk r) :
    (disk p ≠ some .folder ∧ r = p) ∨ (disk p = some .folder ∧ r = p ++ ["output.json".toList]) := by
  rw [save_disk] at h
  split at h
  · next h1 =>
    by_cases hp : disk p = some .folder
    · exact .inr ⟨hp, by rw [h1.2, save_folder hp]⟩
    · exact .inl ⟨hp, by rw [h1.2, save_file hp]⟩
  · exact absurd rfl h

/-- C129: the file cannot be opened exactly if the path is no folder and lies in none, or is a folder with a
folder `output.json`; nothing is changed then. -/
theorem C129_refused :
    ((saveJson disk p d).2 = some .osError ↔
      (disk p ≠ some .folder ∧ disk p.dropLast ≠ some .folder) ∨
      (disk p = some .folder ∧ disk (p ++ ["output.json".toList]) = some .folder)) ∧
    ((saveJson disk p d).2 = some .osError → (saveJson disk p d).1 = disk) := by
  have key : (saveJson disk p d).2 = some .osError ↔ canOpen disk (savePath disk p) = false := by
    unfold saveJson
    by_cases h : canOpen disk (savePath disk p) = true
    · simp [h]
    · simp [Bool.not_eq_true _ ▸ h]
  refine ⟨?_, fun h => ?_⟩
  · rw [key]
    by_cases hp : disk p = some .folder
    · rw [save_folder hp]
      generalize "output.json".toList = f
      simp [canOpen, hp]
    · rw [save_file hp]
      generalize "output.json".toList = f
      simp [canOpen, hp]
  · unfold saveJson
    rw [if_neg (by rw [key.1 h]; simp)]

/-- C129: a dataset saved under a path that is no folder is loaded from this path with the same items,
codings and properties, names as strings. -/
theorem C129_round_trip (F : Floats) (hf : disk p ≠ some .folder) (hd : IsDictK d.items)
    (hp : PyVal F (.obj d.properties)) (hi : dictGet d.properties (.str kItems) = none)
    (hs : ∀ v, dictGet d.properties (.str kSegType) = some v → v = .str kLinear)
    (hr : (saveJson disk p d).2 = none) :
    ∃ d', loadJson F (saveJson disk p d).1 p = .ok d' ∧ IsDict2 d'.items ∧
      (∀ l, HasItem d'.items l ↔ ∃ k ∈ dictKeys d.items, k.toStr = l) ∧
      (∀ l m t, Has d'.items l m t ↔ ∃ kl km cs s, dictGet d.items kl = some cs ∧ dictGet cs km = some s ∧
        kl.toStr = l ∧ km.toStr = m ∧ ReadBack s t) ∧
      SameJson (.obj d'.properties)
        (asJson (.obj (dictSet d.properties (.str kSegType) (.str kLinear)))) := by
  have ho : canOpen disk (savePath disk p) = true := by
    by_contra h
    unfold saveJson at hr
    rw [if_neg h] at hr
    cases hr
  have hw : (outputLinearMassJson d).failed = none := by
    unfold saveJson at hr
    rw [if_pos ho] at hr
    simpa using hr
  obtain ⟨d', h1, h2⟩ := C98_round_trip F hd hp hi hs hw
  refine ⟨d', ?_, h2⟩
  unfold loadJson
  rw [save_disk, if_pos ⟨ho, (save_file hf).symm⟩]
  simp [h1]

/-- C129 refuted for folders: what was saved under the path of a folder is never loaded from this path,
but from the file `output.json` in it. -/
theorem C129_refuted (F : Floats) (h : disk p = some .folder) :
    loadJson F (saveJson disk p d).1 p = .error .osError ∧
    ((saveJson disk p d).2 = none →
      (saveJson disk p d).1 (p ++ ["output.json".toList]) =
        some (.file (outputLinearMassJson d).text)) := by
  constructor
  · unfold loadJson
    rw [save_folders p |>.2 h]
  · intro hr
    have ho : canOpen disk (savePath disk p) = true := by
      by_contra hh
      unfold saveJson at hr
      rw [if_neg hh] at hr
      cases hr
    rw [save_disk, if_pos ⟨ho, (save_folder h).symm⟩]

/-- C129: if writing fails halfway, the file cannot be loaded any more, whatever it held. -/
theorem C129_lost (F : Floats) {e : PyErr} (h : (saveJson disk p d).2 = some (.raised e)) :
    (∀ d', loadJson F (saveJson disk p d).1 (savePath disk p) ≠ .ok d') ∧
    ∃ t, (saveJson disk p d).1 (savePath disk p) = some (.file t) ∧
      inputJsonWide F t = .error .dataIOError := by
  unfold saveJson at h
  split at h
  · next ho =>
    have hf : (outputLinearMassJson d).failed ≠ none := by
      intro hn
      rw [hn] at h
      cases h
    have hd : (saveJson disk p d).1 (savePath disk p) = some (.file (outputLinearMassJson d).text) := by
      rw [save_disk, if_pos ⟨ho, rfl⟩]
    refine ⟨fun d' hl => ?_, _, hd, C99_raises F hf⟩
    unfold loadJson at hl
    rw [hd] at hl
    simp only at hl
    split at hl
    · cases hl
    · next x hx =>
      obtain ⟨entries, h1, -⟩ := (C85_paired_loads F _).1 ⟨x, hx⟩
      exact failed_text F hf _ h1
  · simp at h

/-- C129: loading raises `OSError` exactly if there is no file at the path; otherwise the result depends on
the text of this file only. -/
theorem C129_load (F : Floats) :
    (loadJson F disk p = .error .osError ↔ ∀ t, disk p ≠ some (.file t)) ∧
    ∀ t, disk p = some (.file t) → ∀ d, loadJson F disk p = .ok d ↔ inputJsonText F t = .ok d := by
  constructor
  · unfold loadJson
    split
    · next t h => split <;> simp [h]
    · next h => simpa using h
  · intro t ht d
    unfold loadJson
    rw [ht]
    simp only
    split <;> simp [*]

/-- C129: of several datasets saved under one path only the last is left, also if the path is a folder. -/
theorem C129_last : (saveJson (saveJson disk p d).1 p d').1 = (saveJson disk p d').1 := by
  funext r
  rw [save_disk, save_path_same, save_open_same, save_disk, save_disk]
  split <;> rfl

/-- C129: datasets saved in different files do not influence each other, in whatever order. -/
theorem C129_apart (h : savePath disk p ≠ savePath disk q) :
    (saveJson (saveJson disk p d).1 q d').1 = (saveJson (saveJson disk q d').1 p d).1 ∧
    (saveJson (saveJson disk p d).1 q d').2 = (saveJson disk q d').2 := by
  constructor
  · funext r
    simp only [save_disk (disk := (saveJson disk p d).1), save_disk (disk := (saveJson disk q d').1),
      save_path_same, save_open_same, save_disk]
    by_cases h1 : r = savePath disk p
    · have h2 : r ≠ savePath disk q := fun h2 => h (h1.symm.trans h2)
      simp [h2]
    · simp [h1]
  · unfold saveJson
    have e1 := save_path_same (disk := disk) (p := p) (d := d) q
    have e2 := save_open_same (disk := disk) (p := p) (d := d) (savePath disk q)
    unfold saveJson at e1 e2
    rw [e1, e2]
    split <;> rfl

/-- A disk with a folder `f` in its root. -/
def exDisk : Disk := fun r => if r = [] ∨ r = ["f".toList] then some .folder else none

/-- Saving to a new file, to the folder, and to a folder that is not there. -/
example :
    (saveJson exDisk ["f".toList, "a".toList] ⟨[(.str nX, [(.str nM, mass [2, 3])])], []⟩).2 = none ∧
    (saveJson exDisk ["f".toList] ⟨[(.str nX, [(.str nM, mass [2, 3])])], []⟩).2 = none ∧
    savePath exDisk ["f".toList] = ["f".toList, "output.json".toList] ∧
    (saveJson exDisk ["g".toList, "a".toList] ⟨[], []⟩).2 = some .osError ∧
    (saveJson exDisk ["f".toList] ⟨[(.str nX, [(.str nM, .sets [{1}, ∅])])], []⟩).2 =
      some (.raised .typeError) ∧
    savePath exDisk ["f".toList] ≠ savePath exDisk ["f".toList, "a".toList] := by decide +kernel

end SegEval.Props
