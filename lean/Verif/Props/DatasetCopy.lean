import Verif.Model.DatasetCopy
import Verif.Spec.SaveLoad
import Verif.Lemmas.DataHistory
import Verif.Lemmas.DataCopy
import Verif.Lemmas.Keywords
import Verif.Props.Agreement

/-!
# Properties of copies of a dataset (C124)
-/

namespace SegEval.Props

open SegEval SegEval.Spec

theorem foldl_setItem {V : Type _} (l : List (Name × List (Name × V))) (c : DS V) :
    l.foldl (fun c it => c.setItem it.1 it.2) c = { c with items := dictUpdate c.items l } := by
  induction l generalizing c with
  | nil => rfl
  | cons x xs ih => rw [List.foldl_cons, ih]; rfl

theorem stdDeepcopy_eq {V : Type _} {d : DS V} (hd : (d.items.map Prod.fst).Nodup) :
    d.stdDeepcopy = { items := d.items } := by
  rw [DS.stdDeepcopy, foldl_setItem]
  show ({ items := dictUpdate [] d.items } : DS V) = _
  rw [dictUpdate_nil hd]

/-- C124: `dataset.copy()` has the items, coders, properties, boundary types and format of the
dataset. -/
theorem C124_copy_method {V : Type _} (d : DS V) (hd : (d.items.map Prod.fst).Nodup) :
    d.copyMethod = d := by
  simp only [DS.copyMethod, stdDeepcopy_eq hd]

/-- C124: the copy in memory, whose objects are new (C53), shows what the statements of the method
make of the dataset. -/
theorem C124_copy_in_memory (h : Heap) (a : ℕ) (hd : ((h.view a).items.map Prod.fst).Nodup) :
    (h.copy a).1.view (h.copy a).2 = (h.view a).copyMethod := by
  rw [C124_copy_method _ hd, view_copy_self]

/-- C124, what is true of the copies of the standard library: `copy.deepcopy` and pickle keep the
items, and nothing else: the coders are gone, and properties, types and format are those of an empty
dataset.  `copy.copy` keeps nothing, but has a property for every item. -/
theorem C124_std_copies_partial {V : Type _} (encode : List (Name × V) → JVal) (d : DS V)
    (hd : (d.items.map Prod.fst).Nodup) :
    d.stdDeepcopy.items = d.items ∧ d.stdDeepcopy.coders = ∅ ∧ d.stdDeepcopy.properties = [] ∧
      d.stdDeepcopy.boundaryTypes = {1} ∧ d.stdDeepcopy.boundaryFormat = .mass ∧
    (d.stdCopy encode).items = [] ∧ (d.stdCopy encode).coders = ∅ ∧
      (d.stdCopy encode).properties.map Prod.fst = d.items.map Prod.fst := by
  rw [stdDeepcopy_eq hd]
  refine ⟨rfl, rfl, rfl, rfl, rfl, rfl, rfl, ?_⟩
  have e : (d.stdCopy encode).properties =
      dictUpdate [] (d.items.map (fun it => (it.1, encode it.2))) := rfl
  rw [e, dictUpdate_nil (by rw [List.map_map]; exact hd), List.map_map]
  rfl

/-- C124: pairwise metrics of a deep copy are those of the dataset if its codings are masses. -/
theorem C124_deepcopy_pairwise {R : Type} (o : ClassOrder Name)
    (f : BoundaryFormat → Seg → Seg → Py R) (fmt : BoundaryFormat) (permuted : Bool)
    (d : DS (List ℤ)) (hd : (d.items.map Prod.fst).Nodup) (hm : d.boundaryFormat = .mass) :
    fncMetric o f fmt permuted { args := [.dataset (asDataset d.stdDeepcopy)] } =
      fncMetric o f fmt permuted { args := [.dataset (asDataset d)] } := by
  rw [stdDeepcopy_eq hd]
  simp only [asDataset, hm]
  rfl

theorem noCoders {d : Dataset} (hc : d.coders = ∅) (o : ClassOrder Name) (cmp : Compare)
    (fmt : BoundaryFormat) (items : Items) :
    agreementParts cmp fmt (o.order [] (getCoders (.dataset d))) items = .ok {} := by
  have h : o.order [] (getCoders (.dataset d)) = [] := by
    apply List.eq_nil_iff_forall_not_mem.2
    intro x hx
    rw [o.mem] at hx
    simp [getCoders, hc] at hx
  rw [h]
  rfl

/-- C124, refuted for agreement: of a dataset deep-copied or unpickled no agreement coefficient can be
computed, whatever the data and the comparison. -/
theorem C124_deepcopy_agreement_refuted (o : ClassOrder Name) (cmp : Compare) (fmt : BoundaryFormat)
    (rp : Bool) (d : DS (List ℤ)) (hd : (d.items.map Prod.fst).Nodup) :
    actualAgreement o cmp fmt (.dataset (asDataset d.stdDeepcopy)) = .error .zeroDivisionError ∧
    (∀ out, fleissPi o cmp fmt rp (.dataset (asDataset d.stdDeepcopy)) ≠ .ok out ∧
      fleissKappa o cmp fmt rp (.dataset (asDataset d.stdDeepcopy)) ≠ .ok out ∧
      artsteinPoesioBias o cmp fmt rp (.dataset (asDataset d.stdDeepcopy)) ≠ .ok out) := by
  have hc : (asDataset d.stdDeepcopy).coders = ∅ := by rw [stdDeepcopy_eq hd]; rfl
  generalize asDataset d.stdDeepcopy = x at hc
  have hz : decimalActual {} = .error .decimalInvalidOperation := by decide +kernel
  have hpi : ∀ rp out, fleissPi o cmp fmt rp (.dataset x) ≠ .ok out := by
    intro rp out h
    simp only [fleissPi, noCoders hc, hz] at h
    split at h <;> simp at h
  refine ⟨?_, fun out => ⟨hpi rp out, fun h => ?_, fun h => ?_⟩⟩
  · simp only [actualAgreement, noCoders hc]
    decide +kernel
  · simp only [fleissKappa, noCoders hc, hz] at h
    split at h
    · simp at h
    · split at h <;> simp at h
  · unfold artsteinPoesioBias at h
    cases hp : fleissPi o cmp fmt true (.dataset x) with
    | error e => simp [hp] at h
    | ok y => exact hpi true y hp

/-- Positions of one item, coded twice. -/
def exPositions : DS (List ℤ) :=
  { items := [("i".toList, [("a".toList, [1, 1, 2, 2, 2]), ("b".toList, [1, 1, 1, 2, 2])])]
    coders := {"a".toList, "b".toList}
    properties := [("year".toList, .num 1997)]
    boundaryFormat := .position }

/-- The result is a dict with one number. -/
def oneNumber : Py (CallOut MetricOut) → Option ℚ
  | .ok (.pairs [(_, .num x)]) => some x.val
  | _ => none

/-- C124, refuted for pairwise metrics of other formats: the positions of a dataset deep-copied or
unpickled are taken for masses. -/
theorem C124_deepcopy_format_refuted :
    (exPositions.items.map Prod.fst).Nodup ∧
    oneNumber (fncMetric ascN (fun fmt => boundarySimilarity .ascending { boundaryFormat := fmt }) .mass
      false { args := [.dataset (asDataset exPositions)] }) = some (1 / 2) ∧
    fncMetric ascN (fun fmt => boundarySimilarity .ascending { boundaryFormat := fmt }) .mass false
      { args := [.dataset (asDataset exPositions.stdDeepcopy)] } = .error .segmentationMetricError := by
  refine ⟨by decide, by decide +kernel, ?_⟩
  exact of_decide_eq_true (by decide +kernel)

example : exPositions.copyMethod.coders = {"a".toList, "b".toList} ∧
    exPositions.copyMethod.boundaryFormat = .position ∧
    exPositions.stdDeepcopy.boundaryFormat = .mass ∧
    (exPositions.stdCopy (fun _ => .num 0)).properties.map Prod.fst = ["i".toList] ∧
    actualAgreement ascN (compareB .ascending 2 .default) .mass (.dataset (asDataset exPositions)) =
      .ok (.dec (1 / 2)) ∧
    actualAgreement ascN (compareB .ascending 2 .default) .mass
      (.dataset (asDataset exPositions.stdDeepcopy)) = .error .zeroDivisionError := by
  refine ⟨by decide, by decide, by decide, by decide, by decide +kernel, by decide +kernel⟩

end SegEval.Props
