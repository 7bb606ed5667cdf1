import Verif.Model.JsonText

/-!
# Model of loading JSON files with lone surrogates (`segeval/data/jsonutils.py`)

A Python string is a list of code points that may be surrogates: `json.load` makes one of an escape such
as `\ud800` that is not part of a pair.  `Model/JsonText.lean` leaves such files out because its strings
are lists of characters.  Here strings are lists of code points, so that `input_linear_mass_json` is
modelled for every text.  Attributes of the dataset other than items and properties are left out.
-/

namespace SegEval

/-- The code points of a string (segeval/data/jsonutils.py:65). -/
def codes (s : Name) : List ℕ := s.map Char.toNat

/-- `scanstring_unicode`: pairs of surrogates are joined, others are left as they are (called at
segeval/data/jsonutils.py:65). -/
def joinWide : List ℕ → List ℕ
  | [] => []
  | [u] => [u]
  | u :: v :: r =>
    if isHigh u && isLow v then (0x10000 + (u - 0xd800) * 0x400 + (v - 0xdc00)) :: joinWide r
    else u :: joinWide (v :: r)

/-- `json.loads` (called at segeval/data/jsonutils.py:65). -/
def parseWide (F : Floats) (text : Name) : Py (JV ℕ) := parseJsonOf (fun us => some (joinWide us)) F text

/-- segeval/data/__init__.py:33-51 `Dataset`: the items and properties. -/
structure WideDataset where
  items : List (List ℕ × List (List ℕ × List (JV ℕ))) := []
  properties : List (List ℕ × JV ℕ) := []

/-- segeval/data/jsonutils.py:83-86 the loop over the items. -/
def readItemsWide (l : List (List ℕ × JV ℕ)) (d : WideDataset) : Py WideDataset :=
  forLoop l d (fun d it =>
    match it.2 with
    | .obj cs =>
      match readCodings cs [] with
      | .error e => .error e
      | .ok codings => .ok { d with items := dictSet d.items it.1 codings }
    | _ => .error .attributeError)

/-- segeval/data/jsonutils.py:69-92 `input_linear_mass_json` after reading. -/
def loadWide (data : JV ℕ) : Py WideDataset :=
  match jsonContains (codes kSegType) data with
  | .error e => .error e
  | .ok false => .error .dataIOError
  | .ok true =>
    match jsonIndex (codes kSegType) data with
    | .error e => .error e
    | .ok ty =>
      match ty with
      | .str s =>
        if s = codes kLinear then
          match data with
          | .obj entries =>
            match dictGet entries (codes kItems) with
            | none => .error .dataIOError
            | some items =>
              match items with
              | .obj its =>
                readItemsWide its { properties := entries.filter (fun e => decide (e.1 ≠ codes kItems)) }
              | _ => .error .attributeError
          | _ => .error .typeError
        else .error .dataIOError
      | _ => .error .dataIOError

/-- segeval/data/jsonutils.py:51-92 `input_linear_mass_json` on the text of the file. -/
def inputJsonWide (F : Floats) (text : Name) : Py WideDataset :=
  match parseWide F (universalNewlines text) with
  | .error e => .error e
  | .ok v => loadWide v

end SegEval
