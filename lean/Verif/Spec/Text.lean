import Verif.Model.Text
import Verif.Spec.Format

/-!
# How tables are written as text
-/

namespace SegEval.Spec

open SegEval

/-! ## Numbers -/

/-- The usual decimal notation. -/
def decimal (n : ℤ) : Name :=
  if n < 0 then '-' :: Nat.toDigits 10 n.natAbs else Nat.toDigits 10 n.natAbs

/-- A white space character. -/
def Blank (u : Unicode) (c : Char) : Prop :=
  c ∈ [' ', '\t', '\n', '\r', '\x0b', '\x0c'] ∨ (128 ≤ c.toNat ∧ u.space c = true)

/-- A decimal digit, of whatever script. -/
def DigitOf (u : Unicode) (c : Char) (d : ℕ) : Prop :=
  (d < 10 ∧ c = Nat.digitChar d) ∨
    (128 ≤ c.toNat ∧ u.space c = false ∧ ∃ k : Fin 10, u.digit c = some k ∧ d = k)

/-- Digits, possibly with single underscores between them, and their value. -/
inductive NumText (u : Unicode) : Name → ℕ → Prop
  | one {c : Char} {d : ℕ} : DigitOf u c d → NumText u [c] d
  | more {w : Name} {n : ℕ} {c : Char} {d : ℕ} :
      NumText u w n → DigitOf u c d → NumText u (w ++ [c]) (10 * n + d)
  | under {w : Name} {n : ℕ} {c : Char} {d : ℕ} :
      NumText u w n → DigitOf u c d → NumText u (w ++ ['_', c]) (10 * n + d)

/-- An integer with or without a sign, between white space. -/
def IntText (u : Unicode) (s : Name) (n : ℤ) : Prop :=
  ∃ before sign digits after value, s = before ++ sign ++ digits ++ after ∧
    (∀ c ∈ before, Blank u c) ∧ (∀ c ∈ after, Blank u c) ∧ NumText u digits value ∧
    ((sign = [] ∧ n = value) ∨ (sign = ['+'] ∧ n = value) ∨ (sign = ['-'] ∧ n = -value))

/-! ## Tables -/

/-- Each quote is doubled. -/
def doubled : Name → Name
  | [] => []
  | c :: cs => if c = '"' then '"' :: '"' :: doubled cs else c :: doubled cs

/-- The cell is written as it is, or between quotes. -/
inductive WrittenCell (delim : Char) : Name → Name → Prop
  | plain {cell : Name} : (∀ c ∈ cell, c ≠ delim ∧ c ≠ '\n' ∧ c ≠ '\r' ∧ c ≠ '\x00') →
      cell.head? ≠ some '"' → cell.length ≤ 131072 → WrittenCell delim cell cell
  | quoted {cell : Name} : (∀ c ∈ cell, c ≠ '\r' ∧ c ≠ '\x00') → cell.length ≤ 131072 →
      WrittenCell delim cell ('"' :: doubled cell ++ ['"'])

/-- Cells separated by the delimiter. -/
inductive WrittenRow (delim : Char) : List Name → Name → Prop
  | one {cell w : Name} : WrittenCell delim cell w → WrittenRow delim [cell] w
  | more {cell w : Name} {cells : List Name} {t : Name} : WrittenCell delim cell w →
      WrittenRow delim cells t → WrittenRow delim (cell :: cells) (w ++ delim :: t)

/-- Unix and Windows line ends. -/
def LineEnd (e : Name) : Prop := e = ['\n'] ∨ e = ['\r', '\n']

/-- Rows on lines, of which the last need not be ended; a blank line is a row without cells. -/
inductive WrittenTable (delim : Char) : List (List Name) → Name → Prop
  | nil : WrittenTable delim [] []
  | last {row : List Name} {w : Name} : WrittenRow delim row w → w ≠ [] → WrittenTable delim [row] w
  | row {row : List Name} {w e : Name} {rows : List (List Name)} {t : Name} : WrittenRow delim row w →
      w ≠ [] → LineEnd e → WrittenTable delim rows t → WrittenTable delim (row :: rows) (w ++ e ++ t)
  | blank {e : Name} {rows : List (List Name)} {t : Name} : LineEnd e →
      WrittenTable delim rows t → WrittenTable delim ([] :: rows) (e ++ t)

/-- A character that can delimit cells. -/
def Delimiter (c : Char) : Prop := c ≠ '\n' ∧ c ≠ '\r' ∧ c ≠ '"' ∧ c ≠ '\x00'

/-- `v` is the last entry of the table for `m`. -/
def LastOf {α : Type _} (table : List (Name × α)) (m : Name) (v : α) : Prop :=
  ∃ before after, table = before ++ (m, v) :: after ∧ ∀ e ∈ after, e.1 ≠ m

/-- The labels and the masses describe one segmentation, or both are empty. -/
def SameSegments (labels masses : List ℤ) : Prop :=
  (labels = [] ∧ masses = []) ∨ ∃ pat, LabelsMean labels pat ∧ MassMeans masses pat

/-! ## File names -/

/-- The name is a stem and an extension: the extension starts at the last dot, and not all of the
characters before are dots. -/
def HasExtension (name stem ext : Name) : Prop :=
  name = stem ++ '.' :: ext ∧ '.' ∉ ext ∧ ∃ c ∈ stem, c ≠ '.'

/-- The name is the part of the path after the last slash. -/
def LastPart (path name : Name) : Prop :=
  '/' ∉ name ∧ (path = name ∨ ∃ folder, path = folder ++ '/' :: name)

end SegEval.Spec
