import Verif.Collections.Model
import Verif.Config.WheelFile
import Verif.Tags.Model
/-
Model of entry points and of the file that lists them: pkm/src/pkm/utils/entrypoints.py ("ep"),
pkm/src/pkm/api/distributions/distinfo.py 210-232 ("di"), pkm/src/pkm/config/configfiles.py 37-66 ("cf"), and of the configparser
module of the standard library as far as `cf` uses it ("cp").

Simplifications: blanks are those of ASCII; the file is written and read with `\n` as line end; the name of a section header ends at
the first `]` (as in Python up to 3.10); errors that configparser collects and raises at the end are raised at once; references
`%(key)s` inside values are not expanded but reported as an error of their own (`Err.reference`).
-/
namespace Pkm
namespace Entry
open Config (splitAt stripText lstrip)

/-! ### Object references -/

/-- `ObjectReference` (ep 18-29). -/
structure Ref where
  module : Text
  object : Option Text
  extras : Option (List Text)
deriving DecidableEq

/-- `', '.join(l)` (ep 33). -/
def joinComma : List Text → Text
  | [] => []
  | [e] => e
  | e :: f :: l => e ++ ',' :: ' ' :: joinComma (f :: l)

/-- The object part (ep 32). -/
def showObject : Option Text → Text
  | none => []
  | some o => if o = [] then [] else ':' :: o

/-- The part with the extras (ep 33). -/
def showExtras : Option (List Text) → Text
  | none => []
  | some l => if l = [] then [] else ' ' :: '[' :: (joinComma l ++ [']'])

/-- `ObjectReference.__str__` (ep 31-34). -/
def Ref.show (r : Ref) : Text := r.module ++ (showObject r.object ++ showExtras r.extras)

/-- The group `(\[\s*(?P<ext>[^\]]*)\s*\])?` of the expression (ep 14) and the split of its text (ep 15, 58). The argument starts with
`[` or is empty. -/
def parseExtras : Text → Option (List Text)
  | [] => none
  | _ :: s =>
    if (lstrip s).any (· == ']') then
      if (lstrip s).takeWhile (· != ']') = [] then none
      else some ((splitAt (· == ',') (stripText ((lstrip s).takeWhile (· != ']')))).map stripText)
    else none

/-- The rest of the expression (ep 14), from the colon on: the object takes everything up to the bracket, so that the `\s*` after it
never matches a blank. -/
def parseRest (m : Text) : Text → Ref
  | [] => ⟨m, none, none⟩
  | _ :: s => ⟨m, some (s.takeWhile (· != '[')), parseExtras (s.dropWhile (· != '['))⟩

/-- `ObjectReference.parse` (ep 51-60). The expression (ep 14) matches every text. -/
def Ref.parse (s : Text) : Ref := parseRest (s.takeWhile (· != ':')) (s.dropWhile (· != ':'))

/-- `reduce(getattr, self.object_path.split("."), module)` (ep 41): the attributes looked up one after the other. -/
def Ref.attributes (r : Ref) : Option (List Text) := r.object.map (splitOn '.')

/-- `EntryPoint` (ep 63-74) without the package. -/
structure EntryPoint where
  group : Text
  name : Text
  ref : Ref
deriving DecidableEq

/-- `EntryPoint.is_script` (ep 79-84). -/
def EntryPoint.isScript (e : EntryPoint) : Bool := e.group == t!"console_scripts" || e.group == t!"gui_scripts"

/-! ### Writing -/

/-- Exceptions. -/
inductive Err where
  | value | duplicate | header | parsing | interpolation | reference | attribute
deriving DecidableEq

/-- `tmp.replace('%%', '')` (cp, `BasicInterpolation.before_set`). -/
def dropPairs : Text → Text
  | '%' :: '%' :: s => dropPairs s
  | c :: s => c :: dropPairs s
  | [] => []

/-- A reference `%(key)s` at the start of a text: what follows it. -/
def afterRef : Text → Option Text
  | '%' :: '(' :: s =>
    match s.takeWhile (· != ')'), s.dropWhile (· != ')') with
    | _ :: _, _ :: 's' :: t => some t
    | _, _ => none
  | _ => none

/-- `_KEYCRE.sub('', tmp)` (cp); the first argument bounds the number of steps. -/
def dropRefs : Nat → Text → Text
  | 0, s => s
  | _ + 1, [] => []
  | n + 1, c :: s =>
    match afterRef (c :: s) with
    | some t => dropRefs n t
    | none => c :: dropRefs n s

/-- `before_set` (cp): a lone `%` is refused. -/
def settable (v : Text) : Bool := !((dropRefs v.length (dropPairs v)).contains '%')

/-- `str(value).replace('\n', '\n\t')` (cp, `_write_section`). -/
def indentLines : Text → Text
  | [] => []
  | c :: s => if c = '\n' then '\n' :: '\t' :: indentLines s else c :: indentLines s

/-- A line `key = value`. -/
def writeOption (kv : Text × Text) : Text := kv.1 ++ ' ' :: '=' :: ' ' :: indentLines kv.2

/-- A section: header, options, empty line (cp, `_write_section`). -/
def writeSection (s : Text × Dict Text Text) : Text :=
  '[' :: (s.1 ++ ']' :: '\n' :: (s.2.flatMap (fun kv => writeOption kv ++ ['\n']) ++ ['\n']))

/-- The name of the section with the defaults. -/
def defaultName : Text := t!"DEFAULT"

/-- `INIConfigIO.write` (cf 42-54) for a configuration of sections. -/
def writeIni (d : Dict Text (Dict Text Text)) : Except Err Text :=
  if d.any (fun s => s.1 == defaultName || s.2.any (fun kv => !settable kv.2)) then .error .value
  else .ok (d.flatMap writeSection)

/-! ### Reading -/

/-- The reader (cp, `_read`): the defaults, the sections, and the section, option and indentation of the last header. Values are kept
as lists of lines. -/
structure Ini where
  defaults : Dict Text (List Text) := []
  sections : Dict Text (Dict Text (List Text)) := []
  cur : Option Text := none
  opt : Option Text := none
  indent : Nat := 0

/-- `cursect`. -/
def Ini.options (st : Ini) (n : Text) : Dict Text (List Text) :=
  if n = defaultName then st.defaults else (st.sections.get n).getD []

/-- `cursect[opt] = lines`. -/
def Ini.setOption (st : Ini) (n k : Text) (ls : List Text) : Ini :=
  if n = defaultName then { st with defaults := st.defaults.put k ls }
  else { st with sections := st.sections.put n ((st.options n).put k ls) }

/-- `cursect[optname].append(line)`. -/
def Ini.append (st : Ini) (n k line : Text) : Ini := st.setOption n k (((st.options n).get k).getD [] ++ [line])

/-- A comment line. -/
def isComment (v : Text) : Bool := v.head? == some '#' || v.head? == some ';'

/-- `SECTCRE`: `\[(?P<header>[^]]+)\]`. -/
def sectionHeader : Text → Option Text
  | '[' :: s => if s.any (· == ']') && s.head? != some ']' then some (s.takeWhile (· != ']')) else none
  | _ => none

/-- `(?P<option>.*?)\s*(?P<vi>=|:)\s*(?P<value>.*)$`: up to the first `=` or `:`, and after it. -/
def optionLine (v : Text) : Option (Text × Text) :=
  match v.dropWhile (fun c => c != '=' && c != ':') with
  | [] => none
  | _ :: t => some (stripText (v.takeWhile (fun c => c != '=' && c != ':')), stripText t)

/-- A section header. -/
def Ini.enter (st : Ini) (n : Text) : Except Err Ini :=
  if st.sections.has n then .error .duplicate
  else if n = defaultName then .ok { st with cur := some n, opt := none }
  else .ok { st with sections := st.sections.put n [], cur := some n, opt := none }

/-- An option of the section `n`. -/
def Ini.option (st : Ini) (n : Text) : Option (Text × Text) → Except Err Ini
  | none => .error .parsing
  | some (k, v) =>
    if k = [] then .error .parsing
    else if (st.options n).has k then .error .duplicate
    else .ok { st.setOption n k [v] with opt := some k }

/-- A header of a section or an option. -/
def Ini.header (st : Ini) (v : Text) : Except Err Ini :=
  match sectionHeader v with
  | some n => st.enter n
  | none =>
    match st.cur with
    | none => .error .header
    | some n => st.option n (optionLine v)

/-- The place where a further line of a value would go. -/
def Ini.place (st : Ini) : Option (Text × Text) :=
  match st.cur, st.opt with
  | some n, some k => some (n, k)
  | _, _ => none

/-- The blanks before a line. -/
def indentOf (line : Text) : Nat := (line.takeWhile isSpace).length

/-- A line (cp, `_read`). -/
def Ini.step (st : Ini) (line : Text) : Except Err Ini :=
  if isComment (stripText line) then .ok st
  else match st.place with
    | some (n, k) =>
      if stripText line = [] then .ok (st.append n k [])
      else if st.indent < indentOf line then .ok (st.append n k (stripText line))
      else { st with indent := indentOf line }.header (stripText line)
    | none =>
      if stripText line = [] then .ok st
      else { st with indent := indentOf line }.header (stripText line)

/-- The lines of the file. -/
def runLines : List Text → Ini → Except Err Ini
  | [], st => .ok st
  | l :: ls, st =>
    match st.step l with
    | .ok st => runLines ls st
    | .error e => .error e

/-- `'\n'.join(lines)`. -/
def joinLines : List Text → Text
  | [] => []
  | [l] => l
  | l :: m :: ls => l ++ '\n' :: joinLines (m :: ls)

/-- `s.rstrip()`. -/
def rstrip (s : Text) : Text := (lstrip s.reverse).reverse

/-- `_join_multiline_values` (cp). -/
def joinValue (ls : List Text) : Text := rstrip (joinLines ls)

/-- `before_get` (cp): `%%` stands for `%`; anything else after `%` is an error. -/
def interpolate : Text → Except Err Text
  | [] => .ok []
  | '%' :: '%' :: s => (interpolate s).map ('%' :: ·)
  | '%' :: '(' :: _ => .error .reference
  | '%' :: _ => .error .interpolation
  | c :: s => (interpolate s).map (c :: ·)

/-- The values of some options. -/
def values : Dict Text (List Text) → Except Err (Dict Text Text)
  | [] => .ok []
  | (k, ls) :: d =>
    match interpolate (joinValue ls), values d with
    | .ok v, .ok d => .ok ((k, v) :: d)
    | .error e, _ => .error e
    | _, .error e => .error e

/-- `{**section_values}` (cf 62): the options of the section and the defaults it does not have. -/
def sectionValues (defaults options : Dict Text (List Text)) : Except Err (Dict Text Text) :=
  values (options ++ defaults.filter (fun kv => !options.has kv.1))

/-- An entry of the configuration: a value or a section. -/
abbrev Item := Text ⊕ Dict Text Text

/-- The sections one after the other (cf 60-64). -/
def addSections (defaults : Dict Text (List Text)) : Dict Text (Dict Text (List Text)) → Dict Text Item → Except Err (Dict Text Item)
  | [], d => .ok d
  | (n, options) :: s, d =>
    match sectionValues defaults options with
    | .ok v => addSections defaults s (d.put n (.inr v))
    | .error e => .error e

/-- The defaults first (cf 60, 64), then the sections. -/
def collect (st : Ini) : Except Err (Dict Text Item) :=
  match values st.defaults with
  | .ok v => addSections st.defaults st.sections (v.map (fun kv => (kv.1, Sum.inl kv.2)))
  | .error e => .error e

/-- `for line in fp` (cp): nothing after the last line end is not a line. -/
def dropEnd : List Text → List Text
  | [] => []
  | [l] => if l = [] then [] else [l]
  | l :: m :: ls => l :: dropEnd (m :: ls)

/-- `INIConfigIO.read` (cf 56-66). -/
def readIni (s : Text) : Except Err (Dict Text Item) :=
  match runLines (dropEnd (splitAt (· == '\n') s)) {} with
  | .ok st => collect st
  | .error e => .error e

/-! ### The list of entry points -/

/-- `{e.name: e.ref for e in entries}` (di 231), written as texts (cf 49). -/
def namesOf (es : List EntryPoint) : Dict Text Text := es.foldl (fun d e => d.put e.name e.ref.show) []

/-- The setter of `entrypoints` (di 227-232). -/
def toData (es : List EntryPoint) : Dict Text (Dict Text Text) :=
  (Coll.groupby es (·.group)).map (fun g => (g.1, namesOf g.2))

/-- The getter of `entrypoints` (di 216-225). A value outside of the sections has no `items`. -/
def fromData : Dict Text Item → Except Err (List EntryPoint)
  | [] => .ok []
  | (_, .inl _) :: _ => .error .attribute
  | (g, .inr vs) :: d =>
    match fromData d with
    | .ok es => .ok (vs.map (fun kv => ⟨g, kv.1, Ref.parse kv.2⟩) ++ es)
    | .error e => .error e

/-- Setting the entry points and `save` (di 227-232, cf 42-54). -/
def saveEntries (es : List EntryPoint) : Except Err Text := writeIni (toData es)

/-- `load` and reading the entry points (cf 56-66, di 216-225). -/
def loadEntries (s : Text) : Except Err (List EntryPoint) :=
  match readIni s with
  | .ok d => fromData d
  | .error e => .error e

end Entry
end Pkm
