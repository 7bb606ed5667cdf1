import Verif.Spec.Folders
import Verif.Spec.Agreement
import Verif.Spec.Weights

/-!
# Loaded datasets as arguments of the metrics
-/

namespace SegEval.Spec

open SegEval

/-- What a metric sees of a dataset of integer codings: each coding is a tuple of ints. -/
def asDataset (d : DS (List ℤ)) : Dataset where
  items := d.items.map (fun it => (it.1, it.2.map (fun c => (c.1, .ints true (c.2.map (fun m => ⟨m, 0⟩))))))
  coders := d.coders
  boundaryFormat := d.boundaryFormat

/-- The dataset of integer codings, as loaded from JSON. -/
def asLoaded (d : DS (List ℤ)) : DS (List JVal) where
  items := d.items.map (fun it => (it.1, it.2.map (fun c => (c.1, c.2.map .num))))
  coders := d.coders
  properties := d.properties
  boundaryTypes := d.boundaryTypes
  boundaryFormat := d.boundaryFormat

/-- The same folders and files, listed in another order. -/
inductive Relisted : List FsEntry → List FsEntry → Prop
  | nil : Relisted [] []
  | file (name text) {l l'} : Relisted l l' → Relisted (.file name text :: l) (.file name text :: l')
  | dir (name) {s s' l l'} : Relisted s s' → Relisted l l' → Relisted (.dir name s :: l) (.dir name s' :: l')
  | swap (a b l) : Relisted (a :: b :: l) (b :: a :: l)
  | trans {l l' l''} : Relisted l l' → Relisted l' l'' → Relisted l l''

/-- No folder has two files of the kind that differ only in their extension. -/
def NoTwins (kind : Name → Prop) (entries : List FsEntry) : Prop :=
  ∀ inner, FsFolderIn entries inner → ∀ name text name' text', FsEntry.file name text ∈ inner →
    FsEntry.file name' text' ∈ inner → kind name → kind name' → SameStem name name' → name = name'

/-- Segmentations of at least one unit. -/
def PositiveMasses (d : DS (List ℤ)) : Prop :=
  ∀ label m v, Has d.items label m v → v ≠ [] ∧ ∀ n ∈ v, 0 < n

/-- Comparing all codings gives the same: with `permuted`, every metric has the same values under the same
keys; without, B and S have the same values. -/
def SamePairs (x y : Dataset) : Prop :=
  (∀ (o o' : ClassOrder Name) (g : BoundaryFormat → Seg → Seg → Py MetricOut) (k k' : BoundaryFormat),
    ((∃ out, fncMetric o g k true { args := [.dataset x] } = .ok (.pairs out)) ↔
      ∃ out, fncMetric o' g k' true { args := [.dataset y] } = .ok (.pairs out)) ∧
    ∀ out out', fncMetric o g k true { args := [.dataset x] } = .ok (.pairs out) →
      fncMetric o' g k' true { args := [.dataset y] } = .ok (.pairs out') → out.Perm out') ∧
  ∀ (o o' : ClassOrder Name) (rt rt' : Runtime) (kw : SimKw) (k k' : BoundaryFormat)
    (f : Runtime → SimKw → Seg → Seg → Py MetricOut), Supplied kw.weight → kw.returnParts = false →
    f = boundarySimilarity ∨ f = segmentationSimilarity →
    ((∃ out, fncMetric o (fun fmt => f rt { kw with boundaryFormat := fmt }) k false
        { args := [.dataset x] } = .ok (.pairs out)) ↔
      ∃ out, fncMetric o' (fun fmt => f rt' { kw with boundaryFormat := fmt }) k' false
        { args := [.dataset y] } = .ok (.pairs out)) ∧
    ∀ out out', fncMetric o (fun fmt => f rt { kw with boundaryFormat := fmt }) k false
        { args := [.dataset x] } = .ok (.pairs out) →
      fncMetric o' (fun fmt => f rt' { kw with boundaryFormat := fmt }) k' false
        { args := [.dataset y] } = .ok (.pairs out') →
      (out.map Prod.snd).Perm (out'.map Prod.snd)

/-- The agreement coefficients are the same. -/
def SameAgreement (x y : AgrData) : Prop :=
  ∀ (o o' : ClassOrder Name) (rt rt' : Runtime) (nT : ℤ) (w : Weights) (rp : Bool), Supplied w →
    (∀ out, actualAgreement o (compareB rt nT w) .mass x = .ok out ↔
      actualAgreement o' (compareB rt' nT w) .mass y = .ok out) ∧
    (∀ out, fleissPi o (compareB rt nT w) .mass rp x = .ok out ↔
      fleissPi o' (compareB rt' nT w) .mass rp y = .ok out) ∧
    ∀ out, fleissKappa o (compareB rt nT w) .mass rp x = .ok out ↔
      fleissKappa o' (compareB rt' nT w) .mass rp y = .ok out

end SegEval.Spec
