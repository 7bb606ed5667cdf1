import Verif.Model.Data

/-!
# Model of the text of TSV files (`segeval/data/tsv.py` with `csv.reader`, `int` and `open`)

`tsv.py` leaves the text to three parts of Python: `open(…, 'rU')` (universal newlines, iteration by
lines), `csv.reader` with the default dialect (CPython `Modules/_csv.c`, quote character `"`, doubled
quotes, no escape character, not strict) and `int(str)` (CPython `Objects/longobject.c`).  They are
modelled here character by character.  Not modelled: decoding bytes into characters, and the limit
on the number of digits that `int` has from Python 3.10.7 on.
-/

namespace SegEval

/-! ## Lines -/

/-- `open(filepath, 'rU')` (segeval/data/tsv.py:32): `\r\n` and `\r` are read as `\n`. -/
def universalNewlines : Name → Name
  | [] => []
  | '\r' :: '\n' :: cs => '\n' :: universalNewlines cs
  | c :: cs => (if c = '\r' then '\n' else c) :: universalNewlines cs

/-- Iterating over the file (segeval/data/tsv.py:34): the lines, each with its `\n`; the last one
may lack it. -/
def fileLines : Name → List Name
  | [] => []
  | c :: cs =>
    if c = '\n' then [c] :: fileLines cs
    else
      match fileLines cs with
      | [] => [[c]]
      | l :: ls => (c :: l) :: ls

/-! ## csv.reader -/

/-- The states of `csv.reader` that occur without an escape character (called at
segeval/data/tsv.py:34-35). -/
inductive CsvState
  | startRecord | startField | inField | inQuoted | quoteInQuoted | eatCrnl
  deriving DecidableEq

/-- What the reader holds: the field and the fields read so far (called at
segeval/data/tsv.py:34-35). -/
structure CsvReader where
  state : CsvState := .startRecord
  field : Name := []
  fields : List Name := []
  deriving DecidableEq

/-- `parse_save_field`, then the given state (called at segeval/data/tsv.py:34-35). -/
def CsvReader.save (r : CsvReader) (s : CsvState) : CsvReader :=
  { state := s, field := [], fields := r.fields ++ [r.field] }

/-- `parse_add_char`, then the given state; `csv.field_size_limit()` is 131072 (called at
segeval/data/tsv.py:34-35). -/
def CsvReader.push (r : CsvReader) (c : Char) (s : CsvState) : Py CsvReader :=
  if 131072 ≤ r.field.length then .error .csvError
  else .ok { r with state := s, field := r.field ++ [c] }

/-- `parse_process_char` in the state START_FIELD (called at segeval/data/tsv.py:34-35). -/
def csvField (delim : Char) (r : CsvReader) (c : Char) : Py CsvReader :=
  if c = '\n' ∨ c = '\r' then .ok (r.save .eatCrnl)
  else if c = '"' then .ok { r with state := .inQuoted }
  else if c = delim then .ok (r.save .startField)
  else r.push c .inField

/-- `parse_process_char` for a character of the line; a NUL is refused by the caller (called at
segeval/data/tsv.py:34-35). -/
def csvChar (delim : Char) (r : CsvReader) (c : Char) : Py CsvReader :=
  if c = '\x00' then .error .csvError
  else
    match r.state with
    | .startRecord => if c = '\n' ∨ c = '\r' then .ok { r with state := .eatCrnl } else csvField delim r c
    | .startField => csvField delim r c
    | .inField =>
      if c = '\n' ∨ c = '\r' then .ok (r.save .eatCrnl)
      else if c = delim then .ok (r.save .startField)
      else r.push c .inField
    | .inQuoted => if c = '"' then .ok { r with state := .quoteInQuoted } else r.push c .inQuoted
    | .quoteInQuoted =>
      if c = '"' then r.push c .inQuoted
      else if c = delim then .ok (r.save .startField)
      else if c = '\n' ∨ c = '\r' then .ok (r.save .eatCrnl)
      else r.push c .inField
    | .eatCrnl => if c = '\n' ∨ c = '\r' then .ok r else .error .csvError

/-- `parse_process_char` with 0, which the reader sends after each line (called at
segeval/data/tsv.py:34-35). -/
def csvEnd (r : CsvReader) : CsvReader :=
  match r.state with
  | .startRecord => r
  | .startField => r.save .startRecord
  | .inField => r.save .startRecord
  | .inQuoted => r
  | .quoteInQuoted => r.save .startRecord
  | .eatCrnl => { r with state := .startRecord }

/-- `Reader_iternext`: one line (called at segeval/data/tsv.py:34-35). -/
def csvLine (delim : Char) (r : CsvReader) (line : Name) : Py CsvReader :=
  match forLoop line r (csvChar delim) with
  | .error e => .error e
  | .ok r' => .ok (csvEnd r')

/-- All rows, and the exception that ends the iteration if one is raised (segeval/data/tsv.py:34,
35).  Within a
quoted field a record continues on the next line; at the end of the file it is returned as it is. -/
def csvRows (delim : Char) : List Name → CsvReader → List (List Name) × Option PyErr
  | [], r =>
    if r.field ≠ [] ∨ r.state = .inQuoted then ([(r.save .startRecord).fields], none) else ([], none)
  | line :: lines, r =>
    match csvLine delim r line with
    | .error e => ([], some e)
    | .ok r' =>
      if r'.state = .startRecord then
        (r'.fields :: (csvRows delim lines {}).1, (csvRows delim lines {}).2)
      else csvRows delim lines r'

/-! ## int -/

/-- What `unicodedata` says about characters beyond ASCII (called at segeval/data/tsv.py:49). -/
structure Unicode where
  space : Char → Bool
  digit : Char → Option (Fin 10)

/-- A decimal digit as a character (called at segeval/data/tsv.py:49). -/
def asciiDigit (d : Fin 10) : Char := Nat.digitChar d.val

/-- `_PyUnicode_TransformDecimalAndSpaceToASCII` for one character (called at
segeval/data/tsv.py:49). -/
def toAscii (u : Unicode) (c : Char) : Char :=
  if c.toNat < 128 then c
  else if u.space c = true then ' '
  else
    match u.digit c with
    | some d => asciiDigit d
    | none => '?'

/-- C's `isspace` (called at segeval/data/tsv.py:49). -/
def cSpace (c : Char) : Bool :=
  c = ' ' || c = '\t' || c = '\n' || c = '\r' || c = '\x0b' || c = '\x0c'

/-- The digits after the sign: `acc` is the value so far, `last` whether the character before was a
digit.  A single `_` may stand between digits; white space may follow (called at
segeval/data/tsv.py:49). -/
def intDigits (acc : ℕ) (last : Bool) : Name → Option ℤ
  | [] => if last then some acc else none
  | c :: cs =>
    if c.isDigit = true then intDigits (acc * 10 + (c.toNat - 48)) true cs
    else if c = '_' then if last then intDigits acc false cs else none
    else if last && (c :: cs).all cSpace then some acc
    else none

/-- `int(col)` (segeval/data/tsv.py:49): white space, a sign, digits, white space; `none` is
ValueError. -/
def pyInt (u : Unicode) (s : Name) : Option ℤ :=
  match (s.map (toAscii u)).dropWhile cSpace with
  | '+' :: cs => intDigits 0 false cs
  | '-' :: cs => (intDigits 0 false cs).map (fun n => -n)
  | cs => intDigits 0 false cs

/-! ## Files -/

/-- segeval/data/tsv.py:14-52 `input_linear_mass_tsv` on the text of the file.  The rows are used as
they are
read, so an exception of the csv reader comes after those of the rows before. -/
def inputTsvText (u : Unicode) (delim : Char) (path text : Name) : Py (DS (List ℤ)) :=
  match inputTsv (pyInt u) (nameFromFilepath path)
      (csvRows delim (fileLines (universalNewlines text)) {}).1 with
  | .error e => .error e
  | .ok d =>
    match (csvRows delim (fileLines (universalNewlines text)) {}).2 with
    | some e => .error e
    | none => .ok d

/-- segeval/data/tsv.py:55-77 `input_linear_positions_tsv` on the text of the file. -/
def inputPositionsTsvText (u : Unicode) (delim : Char) (path text : Name) : Py (DS (List ℤ)) :=
  match inputTsvText u delim path text with
  | .error e => .error e
  | .ok d => .ok (convertCodings d)

/-! ## Folders of TSV files -/

/-- One directory entry: a file with its text, or a folder (segeval/data/__init__.py:164-174). -/
inductive FsEntry
  | file (name text : Name)
  | dir (name : Name) (entries : List FsEntry)

/-- `os.path.join(path, name)` (segeval/data/__init__.py:165) for a name that does not begin with
`/`. -/
def joinPath (path name : Name) : Name :=
  if path = [] ∨ path.getLast? = some '/' then path ++ name else path ++ '/' :: name

mutual
/-- Each file with what `input_linear_mass_tsv` makes of it, with the default delimiter
(segeval/data/__init__.py:179); whether it is called is decided by `loadNested`. -/
def readTsvAll (u : Unicode) (path : Name) : List FsEntry → List (Entry (List ℤ))
  | [] => []
  | e :: rest => readTsv u path e :: readTsvAll u path rest
/-- One entry (segeval/data/__init__.py:164-180). -/
def readTsv (u : Unicode) (path : Name) : FsEntry → Entry (List ℤ)
  | .file name text => .file name (inputTsvText u '\t' (joinPath path name) text)
  | .dir name entries => .dir name (readTsvAll u (joinPath path name) entries)
end

/-- segeval/data/__init__.py:138-190 `load_nested_folders_dict(path, FILETYPE_TSV)`. -/
def loadTsvFolder (u : Unicode) (path : Name) (entries : List FsEntry) : Py (DS (List ℤ)) :=
  loadNested FileType.tsv.accepts [] (readTsvAll u path entries) {}

end SegEval
