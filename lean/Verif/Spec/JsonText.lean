import Verif.Model.JsonText
import Verif.Spec.Folders

/-!
# How JSON documents are written as text
-/

namespace SegEval.Spec

open SegEval

/-! ## Strings -/

/-- White space between the parts of a document. -/
def Gap (w : Name) : Prop := ∀ c ∈ w, c ∈ [' ', '\t', '\n', '\r']

/-- The escapes of one letter, and what they stand for. -/
def escapes : List (Char × Char) :=
  [('"', '"'), ('\\', '\\'), ('/', '/'), ('b', '\x08'), ('f', '\x0c'), ('n', '\n'), ('r', '\r'), ('t', '\t')]

/-- A hexadecimal digit in either case. -/
def HexDigit (c : Char) (d : ℕ) : Prop :=
  d < 16 ∧ (c = Nat.digitChar d ∨ c = (Nat.digitChar d).toUpper)

/-- Four hexadecimal digits. -/
def Hex4 (w : Name) (n : ℕ) : Prop :=
  ∃ a b c d x y z u, w = [a, b, c, d] ∧ HexDigit a x ∧ HexDigit b y ∧ HexDigit c z ∧ HexDigit d u ∧
    n = 4096 * x + 256 * y + 16 * z + u

/-- What stands between the quotes, and the string it stands for. -/
inductive StringBody : Name → Name → Prop
  | nil : StringBody [] []
  | plain {c : Char} {t s : Name} : 32 ≤ c.toNat → c ≠ '"' → c ≠ '\\' → StringBody t s →
      StringBody (c :: t) (c :: s)
  | escape {e c : Char} {t s : Name} : (e, c) ∈ escapes → StringBody t s →
      StringBody ('\\' :: e :: t) (c :: s)
  | code {w : Name} {c : Char} {t s : Name} : Hex4 w c.toNat → StringBody t s →
      StringBody ('\\' :: 'u' :: w ++ t) (c :: s)
  /-- Characters beyond 65535 as in UTF-16. -/
  | pair {w w' : Name} {high low : ℕ} {c : Char} {t s : Name} : Hex4 w (0xd800 + high) →
      Hex4 w' (0xdc00 + low) → high < 1024 → low < 1024 → c.toNat = 0x10000 + 1024 * high + low →
      StringBody t s → StringBody ('\\' :: 'u' :: w ++ '\\' :: 'u' :: w' ++ t) (c :: s)

/-! ## Numbers -/

/-- An integer without leading zeros. -/
def IntLit (w : Name) (n : ℤ) : Prop :=
  ∃ k : ℕ, (w = Nat.toDigits 10 k ∧ n = k) ∨ (w = '-' :: Nat.toDigits 10 k ∧ n = -k)

/-- At least one digit. -/
def Digits (w : Name) : Prop := w ≠ [] ∧ ∀ c ∈ w, c.isDigit = true

/-- An integer with a fraction, an exponent, or both. -/
def FloatLit (w : Name) : Prop :=
  ∃ sign k frac exp, w = sign ++ Nat.toDigits 10 k ++ frac ++ exp ∧ (sign = [] ∨ sign = ['-']) ∧
    (frac = [] ∨ ∃ ds, frac = '.' :: ds ∧ Digits ds) ∧
    (exp = [] ∨ ∃ e s ds, exp = e :: s ++ ds ∧ (e = 'e' ∨ e = 'E') ∧
      (s = [] ∨ s = ['+'] ∨ s = ['-']) ∧ Digits ds) ∧
    (frac ≠ [] ∨ exp ≠ [])

/-- The floats that are written as words. -/
def FloatWord (w : Name) : Prop :=
  w = ['N', 'a', 'N'] ∨ w = ['I', 'n', 'f', 'i', 'n', 'i', 't', 'y'] ∨
    w = ['-', 'I', 'n', 'f', 'i', 'n', 'i', 't', 'y']

/-! ## Documents -/

section Documents

variable {α : Type} [DecidableEq α]

mutual
/-- The text is written for the value, where `B` says what stands between the quotes of a string. -/
inductive JTextOf (B : Name → List α → Prop) (F : Floats) : Name → JV α → Prop
  | null : JTextOf B F ['n', 'u', 'l', 'l'] .null
  | true : JTextOf B F ['t', 'r', 'u', 'e'] (.bool true)
  | false : JTextOf B F ['f', 'a', 'l', 's', 'e'] (.bool false)
  | int {w : Name} {n : ℤ} : IntLit w n → JTextOf B F w (.num n)
  | float {w : Name} : FloatLit w → JTextOf B F w (.float (F.read w))
  | word {w : Name} : FloatWord w → JTextOf B F w (.float w)
  | str {t : Name} {s : List α} : B t s → JTextOf B F ('"' :: t ++ ['"']) (.str s)
  | emptyArr {g : Name} : Gap g → JTextOf B F ('[' :: g ++ [']']) (.arr [])
  | arr {t : Name} {l : List (JV α)} : JElemsOf B F t l → JTextOf B F ('[' :: t ++ [']']) (.arr l)
  | emptyObj {g : Name} : Gap g → JTextOf B F ('{' :: g ++ ['}']) (.obj [])
  /-- The last of several entries with the same key counts. -/
  | obj {t : Name} {l : List (List α × JV α)} : JMembersOf B F t l →
      JTextOf B F ('{' :: t ++ ['}']) (.obj (dictUpdate [] l))
/-- Elements separated by commas. -/
inductive JElemsOf (B : Name → List α → Prop) (F : Floats) : Name → List (JV α) → Prop
  | one {g t g' : Name} {v : JV α} : Gap g → JTextOf B F t v → Gap g' → JElemsOf B F (g ++ t ++ g') [v]
  | more {g t g' r : Name} {v : JV α} {l : List (JV α)} : Gap g → JTextOf B F t v → Gap g' → JElemsOf B F r l →
      JElemsOf B F (g ++ t ++ g' ++ ',' :: r) (v :: l)
/-- Entries separated by commas. -/
inductive JMembersOf (B : Name → List α → Prop) (F : Floats) : Name → List (List α × JV α) → Prop
  | one {g b g1 g2 t g3 : Name} {k : List α} {v : JV α} : Gap g → B b k → Gap g1 → Gap g2 → JTextOf B F t v →
      Gap g3 → JMembersOf B F (g ++ '"' :: b ++ '"' :: g1 ++ ':' :: g2 ++ t ++ g3) [(k, v)]
  | more {g b g1 g2 t g3 r : Name} {k : List α} {v : JV α} {l : List (List α × JV α)} : Gap g → B b k →
      Gap g1 → Gap g2 → JTextOf B F t v → Gap g3 → JMembersOf B F r l →
      JMembersOf B F (g ++ '"' :: b ++ '"' :: g1 ++ ':' :: g2 ++ t ++ g3 ++ ',' :: r) ((k, v) :: l)
end

/-- A value between white space. -/
def JDocOf (B : Name → List α → Prop) (F : Floats) (text : Name) (v : JV α) : Prop :=
  ∃ g t g', text = g ++ t ++ g' ∧ Gap g ∧ JTextOf B F t v ∧ Gap g'

end Documents

/-- The text is written for a value without lone surrogates. -/
abbrev JText (F : Floats) : Name → JVal → Prop := JTextOf StringBody F

/-- Elements separated by commas. -/
abbrev JElems (F : Floats) : Name → List JVal → Prop := JElemsOf StringBody F

/-- Entries separated by commas. -/
abbrev JMembers (F : Floats) : Name → List (Name × JVal) → Prop := JMembersOf StringBody F

/-- A value between white space. -/
abbrev JDoc (F : Floats) : Name → JVal → Prop := JDocOf StringBody F

/-- An escape `\uD800` to `\uDFFF`, which stands for no character by itself. -/
def SurrogateEscape (text : Name) : Prop :=
  ∃ before w after n, text = before ++ '\\' :: 'u' :: w ++ after ∧ Hex4 w n ∧ 0xd800 ≤ n ∧ n < 0xe000

/-- What `json.dump` writes for a float. -/
def FloatRepr (F : Floats) (r : Name) : Prop := (FloatLit r ∧ F.read r = r) ∨ FloatWord r

mutual
/-- A value that Python can hold: the keys of objects are distinct, and floats are written as
`json.dump` does. -/
inductive PyJson (F : Floats) : JVal → Prop
  | null : PyJson F .null
  | bool (b : Bool) : PyJson F (.bool b)
  | num (n : ℤ) : PyJson F (.num n)
  | float {r : Name} : FloatRepr F r → PyJson F (.float r)
  | str (s : Name) : PyJson F (.str s)
  | arr {l : List JVal} : PyElems F l → PyJson F (.arr l)
  | obj {l : List (Name × JVal)} : (l.map Prod.fst).Nodup → PyEntries F l → PyJson F (.obj l)
/-- The elements of an array. -/
inductive PyElems (F : Floats) : List JVal → Prop
  | nil : PyElems F []
  | cons {v : JVal} {l : List JVal} : PyJson F v → PyElems F l → PyElems F (v :: l)
/-- The entries of an object. -/
inductive PyEntries (F : Floats) : List (Name × JVal) → Prop
  | nil : PyEntries F []
  | cons {k : Name} {v : JVal} {l : List (Name × JVal)} : PyJson F v → PyEntries F l →
      PyEntries F ((k, v) :: l)
end

/-! ## Datasets -/

/-- What `tuple` makes of a value: the elements of an array, the characters of a string, the keys of an
object. -/
inductive TupleOf {α : Type} : JV α → List (JV α) → Prop
  | arr (l : List (JV α)) : TupleOf (.arr l) l
  | str (s : List α) : TupleOf (.str s) (s.map (fun c => .str [c]))
  | obj (l : List (List α × JV α)) : TupleOf (.obj l) (l.map (fun e => .str e.1))

/-- The items are objects, and their entries can be made into tuples. -/
def ItemsOk {α : Type} (its : List (List α × JV α)) : Prop :=
  ∀ e ∈ its, ∃ cs, e.2 = .obj cs ∧ ∀ c ∈ cs, ∃ t, TupleOf c.2 t

/-- The document says that it is linear, and has items that can be loaded. -/
def Loadable (entries : List (Name × JVal)) : Prop :=
  dictGet entries kSegType = some (.str kLinear) ∧
    ∃ its, dictGet entries kItems = some (.obj its) ∧ ItemsOk its

/-! ## Folders of JSON files -/

/-- The name has the extension json or jsn, in upper or lower case. -/
def JsonName (name : Name) : Prop :=
  ∃ stem ext, HasExtension name stem ext ∧ ext.map Char.toLower ∈ ["json".toList, "jsn".toList]

/-- The file is in the folder or below it by the path, and no JSON file listed later in the same folder
has the same stem. -/
inductive JsonKept : List FsEntry → List Name → Name → Name → Prop
  | here {before after name text} : JsonName name →
      (∀ name' text', FsEntry.file name' text' ∈ after → JsonName name' → ¬ SameStem name name') →
      JsonKept (before ++ FsEntry.file name text :: after) [] name text
  | inside {entries folder sub path name text} : FsEntry.dir folder sub ∈ entries →
      JsonKept sub path name text → JsonKept entries (folder :: path) name text

/-- The text is a document with the coding under the item. -/
def DocCoding (F : Floats) (text item coder : Name) (t : List JVal) : Prop :=
  ∃ entries its cs v, JDoc F text (.obj entries) ∧ dictGet entries kItems = some (.obj its) ∧
    dictGet its item = some (.obj cs) ∧ dictGet cs coder = some v ∧ TupleOf v t

/-- The coding is in a document of the tree, and the label it gets. -/
def JsonCoding (F : Floats) (entries : List FsEntry) (label coder : Name) (t : List JVal)
    (path : List Name) (name item : Name) : Prop :=
  ∃ text, JsonKept entries path name text ∧ DocCoding F text item coder t ∧
    label = joinComma (path ++ [item])

end SegEval.Spec
