import Verif.Model.JsonWide
import Verif.Spec.JsonText

/-!
# JSON documents whose strings may have lone surrogates
-/

namespace SegEval.Spec

open SegEval

/-- The text begins with an escape for the second half of a pair. -/
def LowEscape (t : Name) : Prop := ∃ w r low, t = '\\' :: 'u' :: w ++ r ∧ Hex4 w (0xdc00 + low) ∧ low < 1024

/-- What stands between the quotes, and the code points it stands for. -/
inductive WideBody : Name → List ℕ → Prop
  | nil : WideBody [] []
  | plain {c : Char} {t : Name} {s : List ℕ} : 32 ≤ c.toNat → c ≠ '"' → c ≠ '\\' → WideBody t s →
      WideBody (c :: t) (c.toNat :: s)
  | escape {e c : Char} {t : Name} {s : List ℕ} : (e, c) ∈ escapes → WideBody t s →
      WideBody ('\\' :: e :: t) (c.toNat :: s)
  /-- Also for a surrogate, unless it is the first half of a pair. -/
  | code {w : Name} {n : ℕ} {t : Name} {s : List ℕ} : Hex4 w n →
      ¬ ((0xd800 ≤ n ∧ n < 0xdc00) ∧ LowEscape t) → WideBody t s → WideBody ('\\' :: 'u' :: w ++ t) (n :: s)
  /-- Two halves of a pair. -/
  | pair {w w' : Name} {high low : ℕ} {t : Name} {s : List ℕ} : Hex4 w (0xd800 + high) →
      Hex4 w' (0xdc00 + low) → high < 1024 → low < 1024 → WideBody t s →
      WideBody ('\\' :: 'u' :: w ++ '\\' :: 'u' :: w' ++ t) ((0x10000 + 1024 * high + low) :: s)

/-- The text is a document for the value. -/
abbrev WideDoc (F : Floats) : Name → JV ℕ → Prop := JDocOf WideBody F

/-- The document says that it is linear, and has items that can be loaded. -/
def WideLoadable (entries : List (List ℕ × JV ℕ)) : Prop :=
  dictGet entries (codes kSegType) = some (.str (codes kLinear)) ∧
    ∃ its, dictGet entries (codes kItems) = some (.obj its) ∧ ItemsOk its

/-- The dataset holds the coding. -/
def WideHas (d : WideDataset) (label coder : List ℕ) (t : List (JV ℕ)) : Prop :=
  ∃ cs, dictGet d.items label = some cs ∧ dictGet cs coder = some t

/-- At most one entry per key. -/
def WideDict (d : WideDataset) : Prop :=
  (d.items.map Prod.fst).Nodup ∧ ∀ e ∈ d.items, (e.2.map Prod.fst).Nodup

/-! ## Values without lone surrogates -/

mutual
/-- The value with strings as code points. -/
def widen : JVal → JV ℕ
  | .null => .null
  | .bool b => .bool b
  | .num n => .num n
  | .float r => .float r
  | .str s => .str (codes s)
  | .arr l => .arr (widenAll l)
  | .obj l => .obj (widenEntries l)
/-- The elements of an array. -/
def widenAll : List JVal → List (JV ℕ)
  | [] => []
  | v :: l => widen v :: widenAll l
/-- The entries of an object. -/
def widenEntries : List (Name × JVal) → List (List ℕ × JV ℕ)
  | [] => []
  | (k, v) :: l => (codes k, widen v) :: widenEntries l
end

/-- The dataset with strings as code points. -/
def widenDataset (d : DS (List JVal)) : WideDataset where
  items := d.items.map (fun it => (codes it.1, it.2.map (fun c => (codes c.1, c.2.map widen))))
  properties := d.properties.map (fun e => (codes e.1, widen e.2))

end SegEval.Spec
