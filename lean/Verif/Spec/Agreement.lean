import Verif.Model.Agreement
import Verif.Spec.Compute
import Verif.Spec.Similarity

/-!
# What the agreement coefficients should mean
-/

namespace SegEval.Spec

open SegEval

/-- The coder set is exactly the set of coders found in the items. -/
def CodersMatch (d : AgrData) : Prop :=
  ∀ c, c ∈ getCoders d ↔ ∃ label s, Coded d.items label c s

/-- Every segmentation is valid in the format. -/
def AllValid (fmt : BoundaryFormat) (items : Items) : Prop :=
  ∀ label c s, Coded items label c s → ∃ b, Denotes fmt s b

/-- In every item all coders place the same boundaries. -/
def CompleteAgreement (fmt : BoundaryFormat) (items : Items) : Prop :=
  ∀ label m n sm sn bm bn, Coded items label m sm → Coded items label n sn →
    Denotes fmt sm bm → Denotes fmt sn bn → bm = bn

/-- Any two boundary types that occur in a comparison differ by less than `M`. -/
def TypesWithin (fmt : BoundaryFormat) (items : Items) (M : ℤ) : Prop :=
  ∀ label m n sm sn bm bn, m ≠ n → Coded items label m sm → Coded items label n sn →
    Denotes fmt sm bm → Denotes fmt sn bn → ∀ t t', UsesType bm bn t → UsesType bm bn t' → t - t' < M

/-- Equal boundary types are the same object, in all comparisons. -/
def AllShared (rt : Runtime) (fmt : BoundaryFormat) (items : Items) : Prop :=
  ∀ label m n sm sn bm bn, Coded items label m sm → Coded items label n sn →
    Denotes fmt sm bm → Denotes fmt sn bn → SharedTypes rt bm bn

/-- In every item, any two coders place every boundary type that either of them uses at every
position. -/
def Saturated (fmt : BoundaryFormat) (items : Items) : Prop :=
  ∀ label m n sm sn bm bn, m ≠ n → Coded items label m sm → Coded items label n sn →
    Denotes fmt sm bm → Denotes fmt sn bn → ∀ t, UsesType bm bn t →
      ∀ p < bm.length, t ∈ typesAt bm p

/-- All comparisons are of the same size: the number of positions times the number of boundary types
that either coder uses is always `size`. -/
def SameSize (fmt : BoundaryFormat) (items : Items) (size : ℕ) : Prop :=
  ∀ label m n sm sn bm bn, m ≠ n → Coded items label m sm → Coded items label n sn →
    Denotes fmt sm bm → Denotes fmt sn bn →
      ∃ types : Finset ℤ, (∀ t, t ∈ types ↔ UsesType bm bn t) ∧ bm.length * types.card = size

/-- In every item, all comparisons are of the same size: `size` of the item. -/
def ItemSizes (fmt : BoundaryFormat) (items : Items) (size : Name → ℕ) : Prop :=
  ∀ label m n sm sn bm bn, m ≠ n → Coded items label m sm → Coded items label n sn →
    Denotes fmt sm bm → Denotes fmt sn bn →
      ∃ types : Finset ℤ, (∀ t, t ∈ types ↔ UsesType bm bn t) ∧ bm.length * types.card = size label

/-- `B` counts the boundaries each coder places in each item, and `P` the potential boundaries of two
coders: positions times the number of boundary types that either uses. -/
structure Counts (fmt : BoundaryFormat) (items : Items) (B : Name → Name → ℕ)
    (P : Name → Name → Name → ℕ) : Prop where
  placed : ∀ label m s b, Coded items label m s → Denotes fmt s b → B label m = boundaryCount b
  potential : ∀ label m n sm sn bm bn, Coded items label m sm → Coded items label n sn →
    Denotes fmt sm bm → Denotes fmt sn bn →
      ∃ types : Finset ℤ, (∀ t, t ∈ types ↔ UsesType bm bn t) ∧ P label m n = bm.length * types.card

/-- The mean over items and ordered pairs of coders of the rate at which the first places
boundaries. -/
def meanRate (items : Items) (coders : Finset Name) (B : Name → Name → ℕ)
    (P : Name → Name → Name → ℕ) : ℚ :=
  (∑ m ∈ coders, ∑ n ∈ coders.erase m, (items.map (fun it => (B it.1 m : ℚ) / P it.1 m n)).sum) /
    (coders.card * (coders.card - 1) * items.length)

/-- The rate at which a coder places boundaries over all items, each compared to all other
coders. -/
def coderRate (items : Items) (coders : Finset Name) (B : Name → Name → ℕ)
    (P : Name → Name → Name → ℕ) (m : Name) : ℚ :=
  (∑ _n ∈ coders.erase m, (items.map (fun it => (B it.1 m : ℚ))).sum) /
    ∑ n ∈ coders.erase m, (items.map (fun it => (P it.1 m n : ℚ))).sum

/-- The mean over ordered pairs of coders of the product of their rates. -/
def meanProduct (coders : Finset Name) (rate : Name → ℚ) : ℚ :=
  (∑ m ∈ coders, ∑ n ∈ coders.erase m, rate m * rate n) / (coders.card * (coders.card - 1))

/-- `N` and `D` are the numerators and denominators that comparing two codings yields. -/
def Scores (cmp : Seg → Seg → Py (PyNum × PyNum)) (items : Items) (N D : Name → Name → Name → ℚ) :
    Prop :=
  ∀ label m n sm sn num den, Coded items label m sm → Coded items label n sn →
    cmp sm sn = .ok (num, den) → N label m n = num.val ∧ D label m n = den.val

/-- The sum of numerators over the sum of denominators, over items and ordered pairs of coders. -/
def pooled (items : Items) (coders : Finset Name) (N D : Name → Name → Name → ℚ) : ℚ :=
  (∑ m ∈ coders, ∑ n ∈ coders.erase m, (items.map (fun it => N it.1 m n)).sum) /
    ∑ m ∈ coders, ∑ n ∈ coders.erase m, (items.map (fun it => D it.1 m n)).sum

/-- The same dict of dicts, with entries in another order (outside and inside). -/
def Rearranged (a b : Items) : Prop :=
  ∃ mid : Items, a.Perm mid ∧ List.Forall₂ (fun e e' => e.1 = e'.1 ∧ e.2.Perm e'.2) mid b

/-- The same agreement data, with items and codings in another order. -/
inductive SameData : AgrData → AgrData → Prop
  | dataset (a b : Items) (coders : Finset Name) (fmt : BoundaryFormat) (h : Rearranged a b) :
      SameData (.dataset ⟨a, coders, fmt⟩) (.dataset ⟨b, coders, fmt⟩)
  | dict (a b : Items) (h : Rearranged a b) : SameData (.dict a) (.dict b)

/-- The items of `c` are those of `a` and those of `b`, under whatever labels and in whatever order. -/
def Joined (a b c : Items) : Prop :=
  (c.map Prod.snd).Perm ((a ++ b).map Prod.snd)

/-- `z` is between `x` and `y`, and is one of them only if they are equal. -/
def Between (x y z : ℚ) : Prop :=
  (x = y → z = x) ∧ (x < y → x < z ∧ z < y) ∧ (y < x → y < z ∧ z < x)

/-- Each item of `a` occurs `k` times in `b`, under whatever labels and in whatever order, and `b` has no
other items. -/
def Repeated (k : ℕ) (a b : Items) : Prop :=
  (b.map Prod.snd).Perm (List.replicate k (a.map Prod.snd)).flatten

end SegEval.Spec
