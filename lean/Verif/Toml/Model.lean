import Verif.Dict
import Verif.Parser
/-
Model of the TOML reader and writer, pkm/src/pkm/config/toml.py ("tm" below).

The reader works on the rest of the text; the styles it records (comments, spaces, spellings) matter only for the
writer that `loads` returns and are left out, the writer is the one of `dumps`, without recorded styles. Values are
strings, integers, booleans, lists and tables. Character classes are ASCII. Not modelled (`none`, as exceptions):
floats, multi-line strings, `\N{..}` escapes and expressions other than a string literal given to `eval` (tm 442).
-/
namespace Pkm
namespace Toml

/-- Values; a table is a `dict` in its order. -/
inductive TV where
  | str (s : Text)
  | int (n : Int)
  | bool (b : Bool)
  | list (l : List TV)
  | table (t : List (Text × TV))
  deriving Repr

/-! ### Writer -/

/-- The escape of a character (tm 235-243). -/
def escChar (c : Char) : Text :=
  if c = Char.ofNat 8 then ['\\', 'b']
  else if c = '\t' then ['\\', 't']
  else if c = '\n' then ['\\', 'n']
  else if c = Char.ofNat 12 then ['\\', 'f']
  else if c = '\r' then ['\\', 'r']
  else if c = '"' then ['\\', '"']
  else if c = '\\' then ['\\', '\\']
  else [c]

/-- `data.translate(..)` (tm 235-243). -/
def escape (s : Text) : Text := s.flatMap escChar

/-- `_write_str` without recorded style (tm 232-247). -/
def writeStr (s : Text) : Text := '"' :: (escape s ++ ['"'])

/-- The characters of `_KEY_RX` (tm 10). -/
def isKeyChar (c : Char) : Bool := isAlnum c || c == '-' || c == '_'

/-- `_KEY_RX.fullmatch(k)` (tm 10). -/
def isBare (k : Text) : Bool := !k.isEmpty && k.all isKeyChar

/-- `_write_key_part` (tm 282-286). -/
def writeKeyPart (k : Text) : Text := if isBare k then k else writeStr k

/-- `str(n)`. -/
def showInt : Int → Text
  | .ofNat n => showNat n
  | .negSucc n => '-' :: showNat (n + 1)

/-- `isinstance(v, Mapping)`. -/
def TV.isTable : TV → Bool
  | .table _ => true
  | _ => false

/-- A list with the display 'table-array': not empty, all mappings (tm 140-144). -/
def TV.isTables : TV → Bool
  | .list l => !l.isEmpty && l.all TV.isTable
  | _ => false

/-- A value that makes a table large (tm 127-130). -/
def TV.isLarge : TV → Bool
  | .table _ => true
  | .list _ => true
  | .str s => s.length > 40
  | _ => false

/-- `has_no_assignments` of a table (tm 123-126). -/
def noAssignments (t : List (Text × TV)) : Bool := t.all (fun e => e.2.isTable || e.2.isTables)

/-- `contains_large_data` of a table (tm 127-130). -/
def large (t : List (Text × TV)) : Bool := t.length > 5 || t.any (fun e => e.2.isLarge)

/-- Is the display of a value 'inline' (tm 99-151, without recorded styles and `Table`, `Array` objects)? `level` is
the length of its key. -/
def isInline (level : Nat) : TV → Bool
  | .table t => level != 0 && !noAssignments t && !(large t || level == 1)
  | .list l => !(TV.list l).isTables
  | _ => true

/-- `', '.join(..)`. -/
def commas : List Text → Text
  | [] => []
  | [t] => t
  | t :: ts => t ++ [',', ' '] ++ commas ts

mutual
/-- `_write_value` with inline display and without the space before it (tm 166-210, 353-365). -/
def writeInline : TV → Text
  | .str s => writeStr s
  | .int n => showInt n
  | .bool true => ['t', 'r', 'u', 'e']
  | .bool false => ['f', 'a', 'l', 's', 'e']
  | .list l => '[' :: (commas (writeItems l) ++ [']'])
  | .table t => '{' :: (commas (writeEntries t) ++ ['}'])
/-- The items of `_write_inline_list` (tm 200-208). -/
def writeItems : List TV → List Text
  | [] => []
  | v :: vs => writeInline v :: writeItems vs
/-- The assignments of `_write_inline_table` (tm 356-363). -/
def writeEntries : List (Text × TV) → List Text
  | [] => []
  | (k, v) :: es => (writeKeyPart k ++ [' ', '=', ' '] ++ writeInline v) :: writeEntries es
end

/-- `'.'.join(..)`. -/
def dots : List Text → Text
  | [] => []
  | [t] => t
  | t :: ts => t ++ ['.'] ++ dots ts

/-- `_write_key` for a table (tm 249-280): nothing for the root. -/
def writeHeader (item : Bool) (path : List Text) : Text :=
  if path.isEmpty then []
  else if item then ['[', '['] ++ dots (path.map writeKeyPart) ++ [']', ']', '\n']
  else ['['] ++ dots (path.map writeKeyPart) ++ [']', '\n']

/-- The assignments of `_write_regular_table` (tm 299-306). -/
def writeAssignments (level : Nat) : List (Text × TV) → Text
  | [] => []
  | (k, v) :: es =>
    (if isInline (level + 1) v then writeKeyPart k ++ [' ', '=', ' '] ++ writeInline v ++ ['\n'] else []) ++
      writeAssignments level es

/-- Header, assignments and the line after them (tm 292-315). -/
def writeOwn (item : Bool) (path : List Text) (level : Nat) (t : List (Text × TV)) : Text :=
  writeHeader item path ++ writeAssignments level t ++
    (if t.any (fun e => isInline (level + 1) e.2) then ['\n'] else [])

mutual
/-- `_write_value` for tables and lists of tables that are not inline (tm 188-191, 212-228, 325-351, 389-396); `path`
has the names of the key, `level` its length. In a hidden table an inline table is written as a regular one
(tm 340-342). -/
def writeSub (path : List Text) (level : Nat) : TV → Text
  | .list l => writeTables path (level + 1) l
  | .table t =>
    if level != 0 && noAssignments t then writeSubs true path level t
    else writeOwn false path level t ++ writeSubs false path level t
  | _ => []
/-- The tables of a table: all entries of a hidden one (`hidden`), those that are not inline otherwise. -/
def writeSubs (hidden : Bool) (path : List Text) (level : Nat) : List (Text × TV) → Text
  | [] => []
  | (k, v) :: es =>
    (if hidden || !isInline (level + 1) v then writeSub (path ++ [k]) (level + 1) v else []) ++
      writeSubs hidden path level es
/-- `_write_table_list` (tm 389-396). -/
def writeTables (path : List Text) (level : Nat) : List TV → Text
  | [] => []
  | .table t :: vs => writeOwn true path level t ++ writeSubs false path level t ++ writeTables path level vs
  | _ :: vs => writeTables path level vs
end

/-- `s.rstrip()`. -/
def rstrip (s : Text) : Text := (s.reverse.dropWhile isSpace).reverse

/-- `dumps` (tm 737-738, 158-160). -/
def dumps (t : List (Text × TV)) : Text := rstrip (writeOwn false [] 0 t ++ writeSubs false [] 0 t)

/-! ### Reader -/

/-- `read_non_data(nl)` (tm 404-414): white space (line feeds only with `nl`) and comments. `none`: a comment
without a line feed at its end, on which the code loops forever. `comment`: within a comment. -/
def nonData (nl : Bool) : Bool → Text → Option Text
  | comment, [] => if comment then none else some []
  | true, c :: r => if c = '\n' then (if nl then nonData nl false r else some (c :: r)) else nonData nl true r
  | false, c :: r =>
    if isSpace c && (nl || c != '\n') then nonData nl false r
    else if c = '#' then nonData nl true r
    else some (c :: r)

/-- `match_ws(False)`. -/
def skipBlanks (t : Text) : Text := t.dropWhile (fun c => isSpace c && c != '\n')

/-- The text up to the closing quote: `until_match('"')`, repeated while it ends with a backslash (tm 435-440). -/
def scanBasic : Bool → Text → Option (Text × Text)
  | _, [] => none
  | escaped, c :: r =>
    if c = '"' then
      if escaped then (scanBasic false r).map (fun x => (c :: x.1, x.2)) else some ([], r)
    else (scanBasic (c == '\\') r).map (fun x => (c :: x.1, x.2))

/-- A hexadecimal digit. -/
def hexVal (c : Char) : Option Nat :=
  if isDigit c then some (c.toNat - 48)
  else if 97 ≤ c.toNat && c.toNat ≤ 102 then some (c.toNat - 87)
  else if 65 ≤ c.toNat && c.toNat ≤ 70 then some (c.toNat - 55)
  else none

/-- An octal digit. -/
def octVal (c : Char) : Option Nat := if 48 ≤ c.toNat && c.toNat ≤ 55 then some (c.toNat - 48) else none

/-- The character of a number, if it is one (surrogates are not modelled). -/
def charOf (n : Nat) : Option Char := if n.isValidChar then some (Char.ofNat n) else none

/-- What the escapes of one letter stand for in Python. -/
def simpleEscape (c : Char) : Option Char :=
  if c = '\\' || c = '"' || c = '\'' then some c
  else if c = 'a' then some (Char.ofNat 7)
  else if c = 'b' then some (Char.ofNat 8)
  else if c = 't' then some '\t'
  else if c = 'n' then some '\n'
  else if c = 'v' then some (Char.ofNat 11)
  else if c = 'f' then some (Char.ofNat 12)
  else if c = 'r' then some '\r'
  else none

/-- `eval` of a string literal in double quotes, given what is between them (tm 442): `n` counts the digits of an
escape that are still to come, `acc` is their value so far, `oct` says that they are octal. A null character, a
line end or a quote in it is an error. -/
inductive EscState where
  | plain
  | back
  | hex (left : Nat) (acc : Nat)
  | oct (left : Nat) (acc : Nat)
  deriving DecidableEq, Repr

def unescape : EscState → Text → Option Text
  | .plain, [] => some []
  | .oct _ acc, [] => (charOf acc).map (fun c => [c])
  | _, [] => none
  | .plain, c :: r =>
    if c = '\\' then unescape .back r
    else if c = '"' || c = '\n' || c = '\r' || c.toNat = 0 then none
    else (unescape .plain r).map (c :: ·)
  | .back, c :: r =>
    match simpleEscape c with
    | some d => (unescape .plain r).map (d :: ·)
    | none =>
      if c = '\n' then unescape .plain r
      else if c = 'x' then unescape (.hex 2 0) r
      else if c = 'u' then unescape (.hex 4 0) r
      else if c = 'U' then unescape (.hex 8 0) r
      else if c = 'N' then none
      else
        match octVal c with
        | some d => unescape (.oct 2 d) r
        | none => if c = '\r' || c.toNat = 0 then none else (unescape .plain r).map (fun x => '\\' :: c :: x)
  | .hex left acc, c :: r =>
    match hexVal c with
    | none => none
    | some d =>
      if left = 1 then (charOf (16 * acc + d)).bind (fun e => (unescape .plain r).map (e :: ·))
      else unescape (.hex (left - 1) (16 * acc + d)) r
  | .oct left acc, c :: r =>
    match octVal c with
    | some d =>
      if left = 1 then (charOf (8 * acc + d)).bind (fun e => (unescape .plain r).map (e :: ·))
      else unescape (.oct (left - 1) (8 * acc + d)) r
    | none =>
      (charOf acc).bind (fun e =>
        if c = '\\' then (unescape .back r).map (e :: ·)
        else if c = '"' || c = '\n' || c = '\r' || c.toNat = 0 then none
        else (unescape .plain r).map (fun x => e :: c :: x))

/-- `until_match("'")` and the quote (tm 444-448). -/
def scanLiteral : Text → Option (Text × Text)
  | [] => none
  | c :: r => if c = '\'' then some ([], r) else (scanLiteral r).map (fun x => (c :: x.1, x.2))

/-- `read_str` (tm 450-465) of a string that is not a multi-line one. -/
def readStr : Text → Option (Text × Text)
  | '"' :: r =>
    if ['"', '"'].isPrefixOf r then none
    else
      match scanBasic false r with
      | some (s, r') => (unescape .plain s).map (fun x => (x, r'))
      | none => none
  | '\'' :: r => if ['\'', '\''].isPrefixOf r then none else scanLiteral r
  | _ => none

/-- One part of a key (tm 490-497). -/
def readPart (t : Text) : Option (Text × Text) :=
  match t with
  | [] => none
  | c :: _ =>
    if c = '"' || c = '\'' then readStr t
    else if isKeyChar c then some (t.takeWhile isKeyChar, t.dropWhile isKeyChar)
    else none

/-- The parts of a key (tm 488-503); the text gets shorter with every part. -/
def readParts : Nat → Text → Option (List Text × Text)
  | 0, _ => none
  | f + 1, t =>
    if t.isEmpty then some ([], [])
    else
      match readPart (skipBlanks t) with
      | none => none
      | some (k, r) =>
        match skipBlanks r with
        | '.' :: r' => (readParts f r').map (fun x => (k :: x.1, x.2))
        | _ => some ([k], r)

/-- The kinds of keys: `k`, `[k]`, `[[k]]`. -/
inductive KeyKind where
  | assignment
  | table
  | item
  deriving DecidableEq, Repr

/-- The end of a key (tm 507-513). -/
def closeKey : KeyKind → Text → Option Text
  | .assignment, t => some t
  | .table, ']' :: r => some r
  | .item, ']' :: r =>
    match r.dropWhile isSpace with
    | ']' :: r' => some r'
    | _ => none
  | _, _ => none

/-- The start of a key (tm 481-486). -/
def openKey (t : Text) : KeyKind × Text :=
  match t with
  | '[' :: r =>
    match skipBlanks r with
    | '[' :: r' => (.item, r')
    | r' => (.table, r')
  | t => (.assignment, t)

/-- `read_key` (tm 478-525). -/
def readKey (t : Text) : Option (List Text × KeyKind × Text) :=
  match nonData true false t with
  | none => none
  | some t =>
    match readParts (t.length + 1) (openKey t).2 with
    | none => none
    | some (ks, r) =>
      match closeKey (openKey t).1 r with
      | none => none
      | some r =>
        match nonData false false r with
        | none => none
        | some r => some (ks, (openKey t).1, r)

/-- `int` by `eval` (tm 550): no leading zeros, unless the number is zero. -/
def evalNat (ds : Text) : Option Nat :=
  if ds.isEmpty then none
  else if ds.all isDigit then
    if ds.head? = some '0' && !ds.all (· == '0') then none else some (PS.toNat ds)
  else none

/-- The sign of a number (tm 537-541). -/
def signOf : Text → Bool × Text
  | '-' :: r => (true, r)
  | '+' :: r => (false, r)
  | r => (false, r)

/-- `read_number_or_date` (tm 536-550). `read_date` fails on every text (its `lambda` has the parameters
exchanged, tm 533), and it is called also for a number at the end of the text, as `'' in '-:'`. -/
def readNumber (t : Text) : Option (TV × Text) :=
  let ds := (signOf t).2.takeWhile (fun c => isDigit c || c == '.' || c == 'e')
  let r' := (signOf t).2.dropWhile (fun c => isDigit c || c == '.' || c == 'e')
  match r' with
  | [] => none
  | c :: _ =>
    if c = '-' || c = ':' then none
    else
      match evalNat ds with
      | some n => some (.int (if (signOf t).1 then -(Int.ofNat n) else Int.ofNat n), r')
      | none => none

/-- `read_bool` (tm 552-557). -/
def readBool : Text → Option (TV × Text)
  | 't' :: 'r' :: 'u' :: 'e' :: r => some (.bool true, r)
  | 'f' :: 'a' :: 'l' :: 's' :: 'e' :: r => some (.bool false, r)
  | _ => none

/-- The parts of a full key: `item` is the number that `lastify` adds (tm 78-81). -/
inductive Part where
  | key (k : Text)
  | item
  deriving DecidableEq, Repr

/-- `_enter` (tm 634-658) for a table. Not modelled (`none`): lists in lists, and a list entry of a table. -/
def enter : List Part → TV → List (Text × TV) → Option (List (Text × TV))
  | [], _, t => some t
  | [.key k], v, t => some (Dict.put t k v)
  | .key k :: rest, v, t =>
    match Dict.get t k with
    | none =>
      if rest = [.item] then some (Dict.put t k (.list [v]))
      else if rest.head? = some .item then none
      else (enter rest v []).map (fun t' => Dict.put t k (.table t'))
    | some (.table t') => (enter rest v t').map (fun t'' => Dict.put t k (.table t''))
    | some (.list l) =>
      if rest = [.item] then some (Dict.put t k (.list (l ++ [v])))
      else
        match l.getLast? with
        | some (.table t') => (enter rest v t').map (fun t'' => Dict.put t k (.list (l.dropLast ++ [.table t''])))
        | _ => none
    | some _ => none
  | .item :: _, _, _ => none

mutual
/-- `read_inline_value` (tm 601-632). -/
def readValue : Nat → Text → Option (TV × Text)
  | 0, _ => none
  | f + 1, t =>
    match nonData true false t with
    | none => none
    | some t =>
      match readBare f t with
      | none => none
      | some (v, r) => (nonData false false r).map (fun r' => (v, r'))
/-- The value itself (tm 608-623). At the end of the text the code gives `TimeLiteral('')`, a string. -/
def readBare : Nat → Text → Option (TV × Text)
  | 0, _ => none
  | f + 1, t =>
    match t with
    | [] => some (.str [], [])
    | c :: r =>
      if c = '+' || c = '-' || isDigit c then readNumber t
      else if c = '"' || c = '\'' then (readStr t).map (fun x => (.str x.1, x.2))
      else if c = 't' || c = 'f' then readBool t
      else if c = '[' then readList f r []
      else if c = '{' then
        match readAssignments f true r [] with
        | some (es, '}' :: r') => (nonData false false r').map (fun r'' => (.table es, r''))
        | _ => none
      else none
/-- The loop and the end of `read_inline_list` (tm 566-590). -/
def readList : Nat → Text → List TV → Option (TV × Text)
  | 0, _, _ => none
  | f + 1, t, acc =>
    match nonData true false t with
    | none => none
    | some (']' :: r) => (nonData false false r).map (fun r' => (.list acc, r'))
    | some [] => none
    | some t =>
      match readValue f t with
      | none => none
      | some (v, r) =>
        match nonData true false r with
        | none => none
        | some (',' :: ' ' :: r') => readList f r' (acc ++ [v])
        | some (',' :: r') => readList f r' (acc ++ [v])
        | some (']' :: r') => (nonData false false r').map (fun r'' => (.list (acc ++ [v]), r''))
        | some _ => none
/-- `read_table_assignments` (tm 660-683). -/
def readAssignments : Nat → Bool → Text → List (Text × TV) → Option (List (Text × TV) × Text)
  | 0, _, _, _ => none
  | f + 1, inline, t, acc =>
    match nonData true false t with
    | none => none
    | some [] => some (acc, dropNl t)
    | some ('[' :: _) => some (acc, dropNl t)
    | some _ =>
      match readKey t with
      | some (ks, _, '=' :: r) =>
        match readValue f r with
        | none => none
        | some (v, r) =>
          match enter (ks.map .key) v acc with
          | none => none
          | some acc =>
            if inline then
              match r with
              | ',' :: ' ' :: r' => readAssignments f inline r' acc
              | ',' :: r' => readAssignments f inline r' acc
              | _ => some (acc, dropNl r)
            else
              match r with
              | '\n' :: r' => readAssignments f inline r' acc
              | _ => some (acc, r)
      | _ => none
/-- `self.match('\n')` at the end (tm 682). -/
def dropNl : Text → Text
  | '\n' :: r => r
  | t => t
end

/-- The full key of a table (tm 513). -/
def fullKey (ks : List Text) : KeyKind → List Part
  | .item => ks.map .key ++ [.item]
  | _ => ks.map .key

/-- `read_regular_table` (tm 685-699). -/
def readTable (f : Nat) (t : Text) : Option (List Part × List (Text × TV) × Text) :=
  match readKey t with
  | none => none
  | some (ks, kind, []) => some (fullKey ks kind, [], [])
  | some (ks, kind, '\n' :: r) => (readAssignments f false r []).map (fun x => (fullKey ks kind, x.1, x.2))
  | some _ => none

/-- The loop of `read` (tm 706-715). -/
def readTables (f : Nat) : Nat → Text → List (Text × TV) → Option (List (Text × TV))
  | 0, _, _ => none
  | n + 1, t, data =>
    match nonData true false t with
    | none => none
    | some [] => some data
    | some _ =>
      match readTable f t with
      | none => none
      | some (key, value, r) =>
        match enter key (.table value) data with
        | none => none
        | some data => readTables f n r data

/-- `loads` without the writer (tm 701-718, 725-727). -/
def loads (t : Text) : Option (List (Text × TV)) :=
  match nonData true false t with
  | none => none
  | some r =>
    match readAssignments (4 * t.length + 4) false r [] with
    | none => none
    | some (data, r) => readTables (4 * t.length + 4) (t.length + 1) r data

end Toml
end Pkm
