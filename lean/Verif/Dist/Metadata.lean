import Verif.Config.WheelFile
import Verif.Projects.Dependencies
import Verif.Tags.Model
/-
Model of METADATA files: pkm/src/pkm/api/packages/package_metadata.py ("pm"), with the parts of the email package of the standard
library that it uses ("em").

Simplifications: the file is text with `\n` as line end; line breaks are those of ASCII. How a header is broken into lines and
encoded when it is printed is not modelled; `Mail` names the two facts about it that are used. Lines that start with `From ` are
not treated specially. The object between file and data (`@config`, C47) keeps the data; of its fields only the requirements are
parsed and printed.
-/
namespace Pkm
namespace Meta
open Config (splitAt isBreak)

/-- The values of the raw data. -/
inductive Val where
  | nothing
  | text (s : Text)
  | list (l : List Text)
deriving DecidableEq

abbrev Data := Dict Text Val

/-- `_MULTI_FIELDS` (pm 21-24). -/
def multiFields : List Text := [t!"Provides-Extra", t!"Platform", t!"Supported-Platform", t!"Classifier", t!"Requires-Dist",
  t!"Provides-Dist", t!"Obsoletes-Dist", t!"Requires-External", t!"Project-URL", t!"Dynamic"]

/-- The key of the description. -/
def descriptionKey : Text := t!"Description"

/-- A header that is printed as it is: printable ASCII, in 78 columns, without blanks at its ends and without the start of an
encoded word. -/
def Short (k v : Text) : Prop := v ≠ [] ∧ k.length + 2 + v.length ≤ 78 ∧ (∀ c ∈ v, 32 ≤ c.toNat ∧ c.toNat ≤ 126) ∧
  v.head? ≠ some ' ' ∧ v.getLast? ≠ some ' ' ∧ ¬ (['=', '?'] <:+: v)

/-- The printer of headers, `policy.fold(name, value)` (em generator.py, policy.py, headerregistry.py): it prints short headers as
they are and empty ones without blank. -/
structure Mail where
  fold : Text → Text → Text
  short : ∀ k v, Short k v → fold k v = k ++ ':' :: ' ' :: (v ++ ['\n'])
  empty : ∀ k, fold k [] = k ++ [':', '\n']

/-- Exceptions: a field of the list is no list (pm 36), a value has a line break (em policy.py, `header_store_parse`). -/
inductive Err where
  | notList
  | lineBreak
deriving DecidableEq

/-- `msg[key] = item` (pm 43, 46): refused if `item.splitlines()` has more than one line. -/
def storable (v : Text) : Bool := !(v.dropLast.any isBreak)

/-- Line 42-43 for the items of a list: the exception is not caught. -/
def storeList (k : Text) : List Text → Except Err (List (Text × Text))
  | [] => .ok []
  | v :: l => if storable v then (storeList k l).map ((k, v) :: ·) else .error .lineBreak

/-- The headers of one entry (pm 31-48). -/
def headersOf (k : Text) : Val → Except Err (List (Text × Text))
  | .nothing => .ok []
  | .text v =>
    if k ∈ multiFields then .error .notList
    else if k = descriptionKey then .ok []
    else if storable v then .ok [(k, v)]
    else .ok []
  | .list l => if k = descriptionKey then .ok [] else storeList k l

/-- The loop (pm 31-48). -/
def headers : Data → Except Err (List (Text × Text))
  | [] => .ok []
  | (k, v) :: d => match headersOf k v with
    | .error e => .error e
    | .ok hs => (headers d).map (hs ++ ·)

/-- The payload (pm 50-51). -/
def payload (d : Data) : Text :=
  match d.get descriptionKey with
  | some (.text s) => s
  | _ => []

/-- `PackageMetadataIO.write` (pm 29-53): the headers, an empty line, the payload (em generator.py, `_write`). -/
def write (m : Mail) (d : Data) : Except Err Text :=
  (headers d).map (fun hs => (hs.flatMap (fun h => m.fold h.1 h.2)) ++ '\n' :: payload d)

/-- The characters of a header name (em feedparser.py, `headerRE`). -/
def fieldChar (c : Char) : Bool := 33 ≤ c.toNat && c.toNat ≤ 126 && c != ':'

/-- Does the line start a header? -/
def isHeader (l : Text) : Bool :=
  match l.dropWhile fieldChar with
  | c :: _ => c == ':'
  | [] => false

/-- Does the line continue a header? -/
def isContinuation (l : Text) : Bool :=
  match l with
  | c :: _ => c == ' ' || c == '\t'
  | [] => false

/-- The lines of the headers (em feedparser.py, `_parsegen`): up to the first that neither starts nor continues one. -/
def headerLines (ls : List Text) : List Text := ls.takeWhile (fun l => isHeader l || isContinuation l)

/-- The first line of a header: name and value (em _policybase.py, `Compat32.header_source_parse`). -/
def splitHeader (l : Text) : Text × Text :=
  (l.takeWhile (· != ':'), ((l.dropWhile (· != ':')).drop 1).dropWhile (fun c => c == ' ' || c == '\t'))

/-- The headers of the lines (em feedparser.py, `_parse_headers`): continuation lines belong to the value, with their line breaks. -/
def parseHeaders : List Text → List (Text × Text)
  | [] => []
  | l :: ls =>
    if isContinuation l then parseHeaders ls
    else
      let more := ls.takeWhile isContinuation
      let h := splitHeader l
      (if h.1 = [] then [] else [(h.1, h.2 ++ more.flatMap (fun x => '\n' :: x))]) ++ parseHeaders ls

/-- One step of the loop (pm 64-73). -/
def collectOne (d : Data) (h : Text × Text) : Data :=
  if h.1 ∈ multiFields then
    match d.get h.1 with
    | some (.list l) => d.put h.1 (.list (l ++ [h.2]))
    | _ => d.put h.1 (.list [h.2])
  else
    match d.get h.1 with
    | some (.list l) => d.put h.1 (.list (l ++ [h.2]))
    | some (.text s) => if s = [] then d.put h.1 (.text h.2) else d.put h.1 (.list [s, h.2])
    | _ => d.put h.1 (.text h.2)

/-- `PackageMetadataIO.read` (pm 55-75) of an existing file: the payload is not looked at. -/
def read (t : Text) : Data := (parseHeaders (headerLines (splitAt (· == '\n') t))).foldl collectOne []

/-! ### The metadata of a project -/

/-- The parts of `ProjectConfig` that are used (pm 104-123). Version, constraint and contents of files are their texts. -/
structure Project where
  name : Text
  version : Text
  summary : Option Text := none
  readme : Text := []
  readmeType : Text := t!"text/plain"
  keywords : List Text := []
  authors : List (Option Text × Option Text) := []
  maintainers : List (Option Text × Option Text) := []
  license : Text := []
  classifiers : Option (List Text) := none
  requiresPython : Text := []
  dependencies : List Reqs.Dep := []
  optional : List (Text × List Reqs.Dep) := []

/-- `', '.join(l)`. -/
def joinComma : List Text → Text
  | [] => []
  | [e] => e
  | e :: f :: l => e ++ ',' :: ' ' :: joinComma (f :: l)

/-- The given names or addresses that are not empty (pm 104-108). -/
def given (l : List (Option Text)) : List Text := (l.filterMap id).filter (fun s => !s.isEmpty)

/-- A text that may be `None` (pm 126 removes it). -/
def optText (k : Text) : Option Text → Data
  | none => []
  | some s => [(k, .text s)]

/-- A list that may be `None`. -/
def optList (k : Text) : Option (List Text) → Data
  | none => []
  | some s => [(k, .list s)]

/-- The data of `from_project_config` (pm 104-126), given `all_dependencies`; lines 107-108 use the authors, not the maintainers. -/
def projectData (p : Project) (deps : List Reqs.Dep) : Data :=
  [(t!"Metadata-Version", .text t!"2.1"), (t!"Name", .text p.name), (t!"Version", .text p.version)] ++
  optText t!"Summary" p.summary ++
  [(t!"Description", .text p.readme), (t!"Description-Content-Type", .text p.readmeType), (t!"Keywords", .list p.keywords),
   (t!"Author", .text (joinComma (given (p.authors.map (·.1))))),
   (t!"Author-email", .text (joinComma (given (p.authors.map (·.2))))),
   (t!"Maintainer", .text (joinComma (given (p.authors.map (·.1))))),
   (t!"Maintainer-email", .text (joinComma (given (p.authors.map (·.2))))),
   (t!"License", .text p.license)] ++
  optList t!"Classifier" p.classifiers ++
  [(t!"Requires-Dist", .list (deps.map Reqs.Dep.show)), (t!"Requires-Python", .text p.requiresPython),
   (t!"Provides-Extra", .list (p.optional.map (·.1)))]

/-- What building a project can raise. -/
inductive BErr where
  | marker (e : Markers.MErr)
  | requirement (e : Reqs.DErr)
  | file (e : Err)

/-- The field `dependencies` (pm 91) read from the raw data. -/
def parseDeps (env : UrlEnv) : List Text → Except Reqs.DErr (List Reqs.Dep)
  | [] => .ok []
  | t :: ts => match Reqs.parseDep env t with
    | .error e => .error e
    | .ok d => (parseDeps env ts).map (d :: ·)

/-- The value of the field (pm 91); a missing one gives the empty list. -/
def loadDeps (env : UrlEnv) (d : Data) : Except Reqs.DErr (List Reqs.Dep) :=
  match d.get t!"Requires-Dist" with
  | some (.list l) => parseDeps env l
  | some (.text t) => parseDeps env (t.map (fun c => [c]))
  | _ => .ok []

/-- `PackageMetadata.from_project_config(config).save(path)` (pkm_builders.py 134): `from_config` parses the requirements, saving
prints them again. -/
def build (m : Mail) (env : UrlEnv) (p : Project) : Except BErr Text :=
  match Projects.allDependencies p.dependencies p.optional with
  | .error e => .error (.marker e)
  | .ok deps =>
    match parseDeps env (deps.map Reqs.Dep.show) with
    | .error e => .error (.requirement e)
    | .ok deps' =>
      match write m (projectData p deps') with
      | .error e => .error (.file e)
      | .ok t => .ok t

end Meta
end Pkm
