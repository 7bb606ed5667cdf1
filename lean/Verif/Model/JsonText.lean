import Verif.Model.Text

/-!
# Model of the text of JSON files (`segeval/data/jsonutils.py` with `json.dump` and `json.load`)

`jsonutils.py` leaves the text to Python's `json`: `json.dump(…, sort_keys=True, indent=4)`
(`json/encoder.py`, `_make_iterencode`, in Python 3.4 and later) and `json.load` (`json/decoder.py`
with the scanner of `Modules/_json.c`).  They are modelled here character by character.  Strings with
a surrogate that is not part of a pair are `unmodelled` (`Model/JsonWide.lean` has them).  Not modelled: decoding bytes into
characters, the limits on recursion and on the digits of an int, and keys that are not strings.
-/

namespace SegEval

/-- How Python reads floats: the text that `json.dump` writes for `float(literal)` (called at
segeval/data/jsonutils.py:33 and segeval/data/jsonutils.py:65). -/
structure Floats where
  read : Name → Name

/-! ## json.dump -/

/-- `repr` of an int (`int.__repr__`) (called at segeval/data/jsonutils.py:33). -/
def intRepr (n : ℤ) : Name :=
  if n < 0 then '-' :: Nat.toDigits 10 n.natAbs else Nat.toDigits 10 n.natAbs

/-- `'{0:04x}'.format(n)` for a number below 65536 (called at segeval/data/jsonutils.py:33). -/
def hexRepr (n : ℕ) : Name :=
  [Nat.digitChar (n / 4096 % 16), Nat.digitChar (n / 256 % 16), Nat.digitChar (n / 16 % 16),
    Nat.digitChar (n % 16)]

/-- `ascii_escape_unichar`: one character of a string (called at segeval/data/jsonutils.py:33). -/
def escapeChar (c : Char) : Name :=
  if c = '"' then ['\\', '"']
  else if c = '\\' then ['\\', '\\']
  else if c = '\n' then ['\\', 'n']
  else if c = '\r' then ['\\', 'r']
  else if c = '\t' then ['\\', 't']
  else if c = '\x0c' then ['\\', 'f']
  else if c = '\x08' then ['\\', 'b']
  else if ' ' ≤ c ∧ c ≤ '~' then [c]
  else if c.toNat < 0x10000 then '\\' :: 'u' :: hexRepr c.toNat
  else '\\' :: 'u' :: hexRepr (0xd800 + (c.toNat - 0x10000) / 0x400) ++
    '\\' :: 'u' :: hexRepr (0xdc00 + (c.toNat - 0x10000) % 0x400)

/-- `py_encode_basestring_ascii` (called at segeval/data/jsonutils.py:33). -/
def dumpString (s : Name) : Name := '"' :: s.flatMap escapeChar ++ ['"']

/-- A line end and the indentation of a level (called at segeval/data/jsonutils.py:33). -/
def newline (level : ℕ) : Name := '\n' :: List.replicate (4 * level) ' '

mutual
/-- `_iterencode`: a value at a level of indentation (called at segeval/data/jsonutils.py:33). -/
def dumpJson (level : ℕ) : JVal → Name
  | .null => ['n', 'u', 'l', 'l']
  | .bool true => ['t', 'r', 'u', 'e']
  | .bool false => ['f', 'a', 'l', 's', 'e']
  | .num n => intRepr n
  | .float r => r
  | .str s => dumpString s
  | .arr [] => ['[', ']']
  | .arr (v :: l) =>
    '[' :: newline (level + 1) ++ dumpJson (level + 1) v ++ dumpElems (level + 1) l ++ newline level ++ [']']
  | .obj [] => ['{', '}']
  | .obj ((k, v) :: l) =>
    '{' :: newline (level + 1) ++ dumpString k ++ ':' :: ' ' :: dumpJson (level + 1) v ++
      dumpMembers (level + 1) l ++ newline level ++ ['}']
/-- `_iterencode_list`: the elements after the first (called at segeval/data/jsonutils.py:33). -/
def dumpElems (level : ℕ) : List JVal → Name
  | [] => []
  | v :: l => ',' :: newline level ++ dumpJson level v ++ dumpElems level l
/-- `_iterencode_dict`: the entries after the first (called at segeval/data/jsonutils.py:33). -/
def dumpMembers (level : ℕ) : List (Name × JVal) → Name
  | [] => []
  | (k, v) :: l =>
    ',' :: newline level ++ dumpString k ++ ':' :: ' ' :: dumpJson level v ++ dumpMembers level l
end

/-- segeval/data/jsonutils.py:38-48 `output_linear_mass_json`: the text of the file. -/
def outputJsonText (d : DS (List ℤ)) : Name := dumpJson 0 (outputJson d)

/-! ## json.load -/

/-- `WHITESPACE` (called at segeval/data/jsonutils.py:65). -/
def jsonSpace (c : Char) : Bool := c = ' ' || c = '\t' || c = '\n' || c = '\r'

/-- Skip white space (called at segeval/data/jsonutils.py:65). -/
def skipSpace (t : Name) : Name := t.dropWhile jsonSpace

/-- The value of a hexadecimal digit (called at segeval/data/jsonutils.py:65). -/
def hexVal (c : Char) : Option ℕ :=
  if c.isDigit then some (c.toNat - 48)
  else if 'a' ≤ c ∧ c ≤ 'f' then some (c.toNat - 87)
  else if 'A' ≤ c ∧ c ≤ 'F' then some (c.toNat - 55)
  else none

/-- Four hexadecimal digits (called at segeval/data/jsonutils.py:65). -/
def hexVal4 (a b c d : Char) : Option ℕ :=
  match hexVal a, hexVal b, hexVal c, hexVal d with
  | some x, some y, some z, some w => some (((x * 16 + y) * 16 + z) * 16 + w)
  | _, _, _, _ => none

/-- `BACKSLASH`: what an escape other than `\u` stands for (called at segeval/data/jsonutils.py:65).
-/
def unescape (c : Char) : Option Char :=
  if c = '"' then some '"'
  else if c = '\\' then some '\\'
  else if c = '/' then some '/'
  else if c = 'b' then some '\x08'
  else if c = 'f' then some '\x0c'
  else if c = 'n' then some '\n'
  else if c = 'r' then some '\r'
  else if c = 't' then some '\t'
  else none

/-- `scanstring_unicode` after the opening quote: the code points and what `\u` escapes stand for,
before surrogates are joined; and the text after the closing quote.  `strict` is the default (called
at segeval/data/jsonutils.py:65). -/
def scanUnits : Name → Option (List ℕ × Name)
  | [] => none
  | c :: r =>
    if c = '"' then some ([], r)
    else if c = '\\' then
      match r with
      | 'u' :: h1 :: h2 :: h3 :: h4 :: r' =>
        match hexVal4 h1 h2 h3 h4 with
        | none => none
        | some n => (scanUnits r').map (fun p => (n :: p.1, p.2))
      | e :: r' =>
        match unescape e with
        | none => none
        | some x => (scanUnits r').map (fun p => (x.toNat :: p.1, p.2))
      | [] => none
    else if c < ' ' then none
    else (scanUnits r).map (fun p => (c.toNat :: p.1, p.2))

/-- `Py_UNICODE_IS_HIGH_SURROGATE` (called at segeval/data/jsonutils.py:65). -/
def isHigh (n : ℕ) : Bool := decide (0xd800 ≤ n) && decide (n < 0xdc00)

/-- `Py_UNICODE_IS_LOW_SURROGATE` (called at segeval/data/jsonutils.py:65). -/
def isLow (n : ℕ) : Bool := decide (0xdc00 ≤ n) && decide (n < 0xe000)

/-- Join pairs of surrogates (`scanstring_unicode`); `none` if one is left (called at
segeval/data/jsonutils.py:65). -/
def joinUnits : List ℕ → Option Name
  | [] => some []
  | [u] => if isHigh u || isLow u then none else some [Char.ofNat u]
  | u :: v :: r =>
    if isHigh u then
      if isLow v then
        (joinUnits r).map (Char.ofNat (0x10000 + (u - 0xd800) * 0x400 + (v - 0xdc00)) :: ·)
      else none
    else if isLow u then none
    else (joinUnits (v :: r)).map (Char.ofNat u :: ·)

/-- A string after its opening quote, and the text after it.  `J` joins surrogates: `joinUnits`, or
`joinWide` of `Model/JsonWide.lean`, which leaves lone ones as they are (called at
segeval/data/jsonutils.py:65). -/
def scanString {α : Type} (J : List ℕ → Option (List α)) (t : Name) : Py (List α × Name) :=
  match scanUnits t with
  | none => .error .dataIOError
  | some (units, r) =>
    match J units with
    | none => .error .unmodelled
    | some s => .ok (s, r)

/-- The value of digits (called at segeval/data/jsonutils.py:65). -/
def digitsVal (w : Name) : ℕ := w.foldl (fun n c => n * 10 + (c.toNat - 48)) 0

/-- `_match_number_unicode`: the digits before the point; no other digit follows a leading zero
(called at segeval/data/jsonutils.py:65). -/
def scanInt : Name → Option (Name × Name)
  | [] => none
  | c :: r =>
    if c = '0' then some (['0'], r)
    else if c.isDigit then some (c :: r.takeWhile Char.isDigit, r.dropWhile Char.isDigit)
    else none

/-- `_match_number_unicode`: a point with digits, or nothing (called at
segeval/data/jsonutils.py:65). -/
def scanFrac (t : Name) : Name × Name :=
  match t with
  | '.' :: r =>
    if r.takeWhile Char.isDigit = [] then ([], t)
    else ('.' :: r.takeWhile Char.isDigit, r.dropWhile Char.isDigit)
  | _ => ([], t)

/-- An optional sign (called at segeval/data/jsonutils.py:65). -/
def scanSign : Name → Name × Name
  | '+' :: r => (['+'], r)
  | '-' :: r => (['-'], r)
  | t => ([], t)

/-- `_match_number_unicode`: an exponent, or nothing (called at segeval/data/jsonutils.py:65). -/
def scanExp (t : Name) : Name × Name :=
  match t with
  | [] => ([], [])
  | c :: r =>
    if (c = 'e' ∨ c = 'E') ∧ (scanSign r).2.takeWhile Char.isDigit ≠ [] then
      (c :: (scanSign r).1 ++ (scanSign r).2.takeWhile Char.isDigit, (scanSign r).2.dropWhile Char.isDigit)
    else ([], t)

/-- A number after its sign (called at segeval/data/jsonutils.py:65). -/
def scanUnsigned {α : Type} (F : Floats) (sign : Name) (t : Name) : Option (JV α × Name) :=
  match scanInt t with
  | none => none
  | some (w, r) =>
    let frac := scanFrac r
    let exp := scanExp frac.2
    if frac.1 = [] ∧ exp.1 = [] then
      some (.num (if sign = [] then (digitsVal w : ℤ) else -(digitsVal w : ℤ)), exp.2)
    else some (.float (F.read (sign ++ w ++ frac.1 ++ exp.1)), exp.2)

/-- `_match_number_unicode` (called at segeval/data/jsonutils.py:65). -/
def scanNumber {α : Type} (F : Floats) : Name → Option (JV α × Name)
  | '-' :: r => scanUnsigned F ['-'] r
  | t => scanUnsigned F [] t

/-- The words that are values, and what they stand for (called at segeval/data/jsonutils.py:65). -/
def jsonWords {α : Type} : List (Name × JV α) :=
  [(['n', 'u', 'l', 'l'], .null), (['t', 'r', 'u', 'e'], .bool true),
   (['f', 'a', 'l', 's', 'e'], .bool false), (['N', 'a', 'N'], .float ['N', 'a', 'N']),
   (['I', 'n', 'f', 'i', 'n', 'i', 't', 'y'], .float ['I', 'n', 'f', 'i', 'n', 'i', 't', 'y']),
   (['-', 'I', 'n', 'f', 'i', 'n', 'i', 't', 'y'], .float ['-', 'I', 'n', 'f', 'i', 'n', 'i', 't', 'y'])]

/-- `scan_once_unicode`: a word at the beginning of the text, and the text after it (called at
segeval/data/jsonutils.py:65). -/
def scanWord {α : Type} (t : Name) : Option (JV α × Name) :=
  jsonWords.findSome? (fun w => if w.1.isPrefixOf t then some (w.2, t.drop w.1.length) else none)

mutual
/-- `scan_once_unicode`: a value at the beginning of the text, and the text after it.  The first
argument bounds the recursion (called at segeval/data/jsonutils.py:65). -/
def parseValue {α : Type} [DecidableEq α] (J : List ℕ → Option (List α)) (F : Floats) :
    ℕ → Name → Py (JV α × Name)
  | 0, _ => .error .dataIOError
  | n + 1, t =>
    match t with
    | '"' :: r =>
      match scanString J r with
      | .error e => .error e
      | .ok (s, r1) => .ok (.str s, r1)
    | '[' :: r =>
      match skipSpace r with
      | ']' :: r1 => .ok (.arr [], r1)
      | r1 =>
        match parseElems J F n r1 with
        | .error e => .error e
        | .ok (l, r2) => .ok (.arr l, r2)
    | '{' :: r =>
      match skipSpace r with
      | '}' :: r1 => .ok (.obj [], r1)
      | r1 =>
        match parseMembers J F n r1 with
        | .error e => .error e
        | .ok (l, r2) => .ok (.obj (dictUpdate [] l), r2)
    | t =>
      match scanWord t with
      | some p => .ok p
      | none =>
        match scanNumber F t with
        | some p => .ok p
        | none => .error .dataIOError
/-- `_parse_array_unicode`: the elements of an array that has some (called at
segeval/data/jsonutils.py:65). -/
def parseElems {α : Type} [DecidableEq α] (J : List ℕ → Option (List α)) (F : Floats) :
    ℕ → Name → Py (List (JV α) × Name)
  | 0, _ => .error .dataIOError
  | n + 1, t =>
    match parseValue J F n t with
    | .error e => .error e
    | .ok (v, r) =>
      match skipSpace r with
      | ']' :: r1 => .ok ([v], r1)
      | ',' :: r1 =>
        match parseElems J F n (skipSpace r1) with
        | .error e => .error e
        | .ok (l, r2) => .ok (v :: l, r2)
      | _ => .error .dataIOError
/-- `_parse_object_unicode`: the entries of an object that has some (called at
segeval/data/jsonutils.py:65). -/
def parseMembers {α : Type} [DecidableEq α] (J : List ℕ → Option (List α)) (F : Floats) :
    ℕ → Name → Py (List (List α × JV α) × Name)
  | 0, _ => .error .dataIOError
  | n + 1, t =>
    match t with
    | '"' :: r0 =>
      match scanString J r0 with
      | .error e => .error e
      | .ok (k, r1) =>
        match skipSpace r1 with
        | ':' :: r2 =>
          match parseValue J F n (skipSpace r2) with
          | .error e => .error e
          | .ok (v, r3) =>
            match skipSpace r3 with
            | '}' :: r4 => .ok ([(k, v)], r4)
            | ',' :: r4 =>
              match parseMembers J F n (skipSpace r4) with
              | .error e => .error e
              | .ok (l, r5) => .ok ((k, v) :: l, r5)
            | _ => .error .dataIOError
        | _ => .error .dataIOError
    | _ => .error .dataIOError
end

/-- `json.loads` (`JSONDecoder.decode`); segeval/data/jsonutils.py:64-68 turns its exceptions into
DataIOError.  The
bound on the recursion is never reached. -/
def parseJsonOf {α : Type} [DecidableEq α] (J : List ℕ → Option (List α)) (F : Floats) (text : Name) : Py (JV α) :=
  match parseValue J F (2 * text.length + 1) (skipSpace text) with
  | .error e => .error e
  | .ok (v, r) => if skipSpace r = [] then .ok v else .error .dataIOError

/-- `json.loads` of texts in which all surrogates are in pairs (called at
segeval/data/jsonutils.py:65). -/
def parseJson (F : Floats) (text : Name) : Py JVal := parseJsonOf joinUnits F text

/-- segeval/data/jsonutils.py:51-92 `input_linear_mass_json` on the text of the file. -/
def inputJsonText (F : Floats) (text : Name) : Py (DS (List JVal)) :=
  match parseJson F (universalNewlines text) with
  | .error e => .error e
  | .ok v => inputJson (some v)

/-! ## Folders of JSON files -/

mutual
/-- Each file with what `input_linear_mass_json` makes of it (segeval/data/__init__.py:179); whether
it is
called is decided by `loadNested`. -/
def readJsonAll (F : Floats) : List FsEntry → List (Entry (List JVal))
  | [] => []
  | e :: rest => readJson F e :: readJsonAll F rest
/-- One entry (segeval/data/__init__.py:164-174). -/
def readJson (F : Floats) : FsEntry → Entry (List JVal)
  | .file name text => .file name (inputJsonText F text)
  | .dir name entries => .dir name (readJsonAll F entries)
end

/-- segeval/data/__init__.py:138-190 `load_nested_folders_dict(path, FILETYPE_JSON)`. -/
def loadJsonFolder (F : Floats) (entries : List FsEntry) : Py (DS (List JVal)) :=
  loadNested FileType.json.accepts [] (readJsonAll F entries) {}

end SegEval
