import Verif.Parser
import Verif.Dict
/-
Model of the RECORD file of an installed package: pkm/src/pkm/config/configfiles.py 96-112 ("cf"), the csv module of the
standard library with its default dialect, pkm/src/pkm/api/distributions/distinfo.py 255-279 ("di"), the attribute codecs of
pkm/src/pkm/config/configclass.py ("cc") and pkm/src/pkm/utils/hashes.py 94-193 ("hs").

Simplifications: a text has no surrogates; the file is written and read with the same encoding; a length is a natural number and
`int` of a text accepts digits only (Python also takes signs, blanks and underscores).
-/
namespace Pkm
namespace Dist

/-! ### csv -/

/-- A character for which the writer quotes a field: delimiter, quote and the characters of line ends. -/
def special (c : Char) : Bool := c == ',' || c == '"' || c == '\r' || c == '\n'

/-- Doubles the quotes. -/
def escape : Text → Text
  | [] => []
  | c :: s => if c = '"' then '"' :: '"' :: escape s else c :: escape s

/-- A quoted field. -/
def quote (s : Text) : Text := '"' :: (escape s ++ ['"'])

/-- A field as `csv.writer` writes it (QUOTE_MINIMAL). -/
def writeField (s : Text) : Text := if s.any special then quote s else s

/-- The fields, separated by commas. -/
def joinFields : List Text → Text
  | [] => []
  | [f] => writeField f
  | f :: g :: l => writeField f ++ ',' :: joinFields (g :: l)

/-- `csv.writer(fd).writerow(row)` (cf 106): an only, empty field is quoted. -/
def writeRow (row : List Text) : Text := (if row = [[]] then quote [] else joinFields row) ++ ['\r', '\n']

/-- The rows one after the other (cf 104-106). -/
def writeCsv (rows : List (List Text)) : Text := rows.flatMap writeRow

/-- States of the reader of the csv module. -/
inductive St where
  | startRecord | startField | inField | inQuoted | quoteInQuoted | eatNewline
deriving DecidableEq

/-- Reader: state, the characters of the field and the fields so far (both reversed), and the rows so far (reversed). -/
structure Rd where
  st : St := .startRecord
  field : Text := []
  fields : List Text := []
  rows : List (List Text) := []

/-- What the reader sees: the characters, and after each line its end (`none`). The file is opened with `newline=''` (cf 109), so a
line ends after `\r\n`, `\r` or `\n`. -/
def events : Text → List (Option Char)
  | [] => []
  | '\r' :: '\n' :: s => some '\r' :: some '\n' :: none :: events s
  | c :: s =>
    if c = '\r' ∨ c = '\n' then some c :: none :: events s
    else if s = [] then [some c, none]
    else some c :: events s

def isNewline (c : Char) : Bool := c == '\r' || c == '\n'

/-- Ends the field. -/
def Rd.save (r : Rd) (st : St) : Rd := { r with st := st, field := [], fields := r.field.reverse :: r.fields }

/-- Adds a character. -/
def Rd.add (r : Rd) (c : Char) (st : St) : Rd := { r with st := st, field := c :: r.field }

/-- Ends the row. -/
def Rd.row (r : Rd) : Rd := { r with st := .startRecord, field := [], fields := [], rows := r.fields.reverse :: r.rows }

/-- A character at the start of a field. -/
def Rd.start (r : Rd) (c : Char) : Rd :=
  if isNewline c then r.save .eatNewline
  else if c = '"' then { r with st := .inQuoted }
  else if c = ',' then r.save .startField
  else r.add c .inField

/-- One character (`parse_process_char`); `none` for the error of a character after a line end within a line. -/
def Rd.char (r : Rd) (c : Char) : Option Rd :=
  match r.st with
  | .startRecord => if isNewline c then some { r with st := .eatNewline } else some (r.start c)
  | .startField => some (r.start c)
  | .inField =>
    if isNewline c then some (r.save .eatNewline)
    else if c = ',' then some (r.save .startField)
    else some (r.add c .inField)
  | .inQuoted => if c = '"' then some { r with st := .quoteInQuoted } else some (r.add c .inQuoted)
  | .quoteInQuoted =>
    if c = '"' then some (r.add c .inQuoted)
    else if c = ',' then some (r.save .startField)
    else if isNewline c then some (r.save .eatNewline)
    else some (r.add c .inField)
  | .eatNewline => if isNewline c then some r else none

/-- The end of a line: the row is complete unless a quoted field goes on. -/
def Rd.endLine (r : Rd) : Rd :=
  match r.st with
  | .startRecord => r.row
  | .startField | .inField | .quoteInQuoted => (r.save .startRecord).row
  | .inQuoted => r
  | .eatNewline => r.row

/-- The reader over the whole file; at its end an unfinished quoted field is taken as it is. -/
def runCsv : List (Option Char) → Rd → Option (List (List Text))
  | [], r => if r.st = .inQuoted then some ((r.save .startRecord).row).rows.reverse else some r.rows.reverse
  | some c :: es, r =>
    match r.char c with
    | some r => runCsv es r
    | none => none
  | none :: es, r => runCsv es r.endLine

/-- `csv.reader(fd)` (cf 110-112). -/
def readCsv (s : Text) : Option (List (List Text)) := runCsv (events s) {}

/-! ### Records -/

/-- Errors: `KeyError` (cf 106), `IndexError` (cf 112), `ValueError`, and the error of the csv reader. -/
inductive Err where
  | key | index | value | csv
deriving DecidableEq

/-- `HashSignature` with its two attributes (hs 123-126), in RECORD files with base64 values (hs 189-193). -/
structure Sig where
  type : Text
  value : Text
deriving DecidableEq

/-- `HashSignature.__str__` (hs 140-141). -/
def Sig.show (s : Sig) : Text := s.type ++ '=' :: s.value

/-- Splits at every `=`. -/
def splitEq : Text → List Text := splitOn '='

/-- Without the blanks at the end. -/
def rstrip (s : Text) : Text := (s.reverse.dropWhile isSpace).reverse

/-- Without the blanks at the start. -/
def lstrip (s : Text) : Text := s.dropWhile isSpace

/-- `HashSignature.parse_urlsafe_base64_nopad_encoded` (hs 94, 170-175): the parts around the `=`, without the blanks around it. -/
def Sig.parse (s : Text) : Except Err Sig :=
  match splitEq s with
  | [a, b] => .ok ⟨rstrip a, lstrip b⟩
  | _ => .error .value

/-- `Record` (di 264-269). Attributes that are absent or empty in the file are `None`. -/
structure Record where
  file : Option Text
  hash : Option Sig
  length : Option Nat
deriving DecidableEq

/-- `int(str(v))` (cc 113). -/
def readInt (s : Text) : Except Err Nat := if isNumeric s then .ok (PS.toNat s) else .error .value

/-- `StringableFieldCodec.parse` for `int` (cc 109-113, cf 99-101). -/
def parseLength (s : Text) : Except Err (Option Nat) :=
  if s = [] then .ok none else
  match readInt s with
  | .ok n => .ok (some n)
  | .error e => .error e

/-- `_RecordHashsignatureCodec.parse` (di 257-258). -/
def parseHash (s : Text) : Except Err (Option Sig) :=
  if s = [] then .ok none else
  match Sig.parse s with
  | .ok x => .ok (some x)
  | .error e => .error e

/-- A codec applied to a column that may be absent (cc 315-334: an absent attribute has the default `None`). -/
def column {A : Type} (f : Text → Except Err (Option A)) : Option Text → Except Err (Option A)
  | none => .ok none
  | some s => f s

/-- A row as attributes by header (cf 111-112), and these as a `Record` (cc 302-341). -/
def parseRow (row : List Text) : Except Err Record :=
  if row.length > 3 then .error .index else do
  let h ← column parseHash row[1]?
  let n ← column parseLength row[2]?
  .ok ⟨row[0]?, h, n⟩

/-- The columns of a record: attributes that are `None` are left out (cc 349), so their column is a `KeyError` (cf 106). -/
def unparseRow (r : Record) : Except Err (List Text) :=
  match r.file, r.hash, r.length with
  | some f, some h, some n => .ok [f, h.show, showNat n]
  | _, _, _ => .error .key

/-- `RecordsFileConfiguration.save`: the text of the file, or the error. -/
def writeRecords (rs : List Record) : Except Err Text := do
  let rows ← rs.mapM unparseRow
  .ok (writeCsv rows)

/-- `RecordsFileConfiguration.load` of a file with the given text. -/
def readRecords (s : Text) : Except Err (List Record) :=
  match readCsv s with
  | some rows => rows.mapM parseRow
  | none => .error .csv

/-- What is in the file when `save` fails (cf 104-106: the file is emptied first and the rows are written one by one). -/
def writtenBefore : List Record → Text
  | [] => []
  | r :: rs =>
    match unparseRow r with
    | .ok row => writeRow row ++ writtenBefore rs
    | .error _ => []

/-! ### Base64 -/

/-- The digits of `urlsafe_b64encode` (hs 193). -/
def digit64 (n : Nat) : Char :=
  if n < 26 then Char.ofNat (65 + n)
  else if n < 52 then Char.ofNat (97 + (n - 26))
  else if n < 62 then Char.ofNat (48 + (n - 52))
  else if n = 62 then '-' else '_'

/-- `urlsafe_b64encode(digest).rstrip("=")` (hs 190-193): three bytes as four digits, the rest without padding. -/
def encode64 : List Nat → Text
  | [] => []
  | [a] => [digit64 (a / 4), digit64 (a % 4 * 16)]
  | [a, b] => [digit64 (a / 4), digit64 (a % 4 * 16 + b / 16), digit64 (b % 16 * 4)]
  | a :: b :: c :: s =>
    digit64 (a / 4) :: digit64 (a % 4 * 16 + b / 16) :: digit64 (b % 16 * 4 + c / 64) :: digit64 (c % 64) :: encode64 s

/-- `validate_against` (hs 131-138), for a digest computed by the hash function of the signature's type; `none` for the `KeyError`
of an unknown type. -/
def validate (digest : Text → Option (List Nat)) (s : Sig) : Option Bool :=
  match digest s.type with
  | none => none
  | some d => some (encode64 d == s.value)

end Dist
end Pkm
