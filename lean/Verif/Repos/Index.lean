import Verif.VersionText.Model
import Verif.Collections.Model
import Verif.Names.Model
import Verif.Tags.Model
import Verif.Sort
/-
Model of what the two index repositories answer: pkm/src/pkm/repositories/simple_repository.py ("sr") and
pkm/src/pkm/repositories/pypi_repository.py ("pr"), with `_sorted_by_version` of
pkm/src/pkm/api/repositories/repository.py ("rp") and the functions of pkm/src/pkm/utils/strings.py ("st").

Simplifications:
* The tokens of an HTML page are given as the calls that `html.parser.HTMLParser` makes. Character references and
  comments are not modelled: with `convert_charrefs` (an ellipsis, which is true) the text of an element without
  children is one call of `handle_data`.
* The JSON of PyPI is a record per file. A key that is absent and a key whose value is `null` are not told apart,
  except for `digests`.
* A download is given by the outcome of the hash check (`is_hash_valid`, modelled in Verif/Http/Cache.lean).
* `packages.sort(key=.., reverse=True)` is a stable insertion sort. The two agree where the order of versions is a
  strict weak order, which is all that is claimed of the order below.
-/
namespace Pkm.Index

inductive IErr where
  | index | value | key | assertion | installation
  deriving DecidableEq, Repr

/-- `endswith_any` (st 28-34). -/
def endswithAny (s : Text) (sfs : List Text) : Option Text := sfs.find? (fun sf => sf.isSuffixOf s)

/-- `_DISTRIBUTION_EXTENSIONS` (sr 56). -/
def extensions : List Text := [t!".whl", t!".tar.gz", t!".zip"]

/-- `_extract_version` (sr 59-64). -/
def extractVersion (file : Text) : Except IErr Text :=
  match endswithAny file extensions with
  | none => .error .value                      -- `s.endswith(None)`, does not happen for listed artifacts
  | some sf =>
    let parts := splitOn '-' (Coll.withoutSuffix file sf)
    if sf = t!".whl" then
      match parts[1]? with
      | some v => .ok v
      | none => .error .index
    else .ok (parts.getLast?.getD [])

/-- `PackageArtifact` (standard_package.py 21-25) with the url of `other_info`. -/
structure Art where
  file : Text
  requires : Option VSpec
  url : Text

/-- A call of the HTML parser. -/
inductive Ev where
  | start (tag : Text) (attrs : List (Text × Option Text))
  | data (text : Text)
  | close (tag : Text)
  deriving DecidableEq, Repr

/-- `{kv[0]: kv[1] for kv in attrs if kv[1] is not None}` (sr 85): the last one wins. -/
def attrDict : List (Text × Option Text) → Dict Text Text → Dict Text Text
  | [], d => d
  | (k, some v) :: as, d => attrDict as (Dict.put d k v)
  | (_, none) :: as, d => attrDict as d

/-- `s.lstrip('/')`. -/
def lstripSlash (s : Text) : Text := s.dropWhile (· == '/')

/-- The address of a link (sr 94-96). -/
def linkUrl (base href : Text) : Text :=
  if t!"http".isPrefixOf href then href else base ++ '/' :: lstripSlash href

/-- `requires_python` of a link or of a file: an absent or empty text is no requirement (sr 90-92, pr 125-132). -/
def readRequires (env : UrlEnv) : Option Text → Except IErr (Option VSpec)
  | none => .ok none
  | some [] => .ok none
  | some (c :: cs) => match parseSpecifier env (c :: cs) with
    | .ok s => .ok (some s)
    | .error _ => .error .value

/-- `handle_element` (sr 87-99): what it appends. -/
def element (env : UrlEnv) (base : Text) (tag : Text) (attrs : Dict Text Text) (text : Text) :
    Except IErr (List Art) :=
  if tag = t!"a" then
    match Dict.get attrs t!"href" with
    | none => .ok []
    | some href => match readRequires env (Dict.get attrs t!"data-requires-python") with
      | .error e => .error e
      | .ok r => if (endswithAny text extensions).isSome then .ok [⟨text, r, linkUrl base href⟩] else .ok []
  else .ok []

/-- Prepend what was appended first. -/
def andThen (a b : Except IErr (List Art)) : Except IErr (List Art) :=
  match a with
  | .error e => .error e
  | .ok xs => match b with
    | .error e => .error e
    | .ok ys => .ok (xs ++ ys)

/-- The calls of the HTML parser (sr 75-99); the first argument is `_text_handler`. -/
def feed (env : UrlEnv) (base : Text) : Option (Text × List (Text × Option Text)) → List Ev → Except IErr (List Art)
  | _, [] => .ok []
  | _, .start tag attrs :: es => feed env base (some (tag, attrs)) es
  | some (tag, attrs), .data text :: es =>
    andThen (element env base tag (attrDict attrs []) text) (feed env base none es)
  | none, .data _ :: es => feed env base none es
  | some (tag, attrs), .close _ :: es =>
    andThen (element env base tag (attrDict attrs []) []) (feed env base none es)
  | none, .close _ :: es => feed env base none es

/-- A package of an index (sr 45-47, 102-105; pr 70-73): descriptor and artifacts. -/
structure Pkg where
  name : Text
  version : Ver
  artifacts : List Art

/-- `_sorted_by_version` (rp 91-93): descending and stable. -/
def sortDown (ps : List Pkg) : List Pkg := sortBy (fun a b => !(a.version.lt b.version)) ps

/-- The version texts of the files, in order (sr 41-42). -/
def keyed : List Art → Except IErr (List (Text × Art))
  | [] => .ok []
  | a :: as => match extractVersion a.file with
    | .error e => .error e
    | .ok v => match keyed as with
      | .error e => .error e
      | .ok r => .ok ((v, a) :: r)

/-- `PackageDescriptor(dependency.package_name, ..)` for each version (sr 44-50). -/
def describe (env : UrlEnv) (dep : Text) (groups : List (Text × List (Text × Art))) : Except IErr (List Pkg) :=
  match groups with
  | [] => .ok []
  | _ :: _ => match descriptorName dep with
    | none => .error .assertion
    | some n => .ok (groups.map (fun g => ⟨n, parseVersion env g.1, g.2.map (·.2)⟩))

/-- The packages on a page (sr 37-51). -/
def packagesOf (env : UrlEnv) (base dep : Text) (page : List Ev) : Except IErr (List Pkg) :=
  match feed env base none page with
  | .error e => .error e
  | .ok arts => match keyed arts with
    | .error e => .error e
    | .ok ks => describe env dep (Coll.groupby ks (·.1))

/-- `self._packages` (sr 30): per requested name the packages found. -/
abbrev Seen := Dict Text (List Pkg)

/-- `SimpleRepository._do_match` (sr 32-53). `page` is what the server sends now. -/
def simpleMatch (env : UrlEnv) (base : Text) (seen : Seen) (dep : Text) (spec : VSpec) (page : List Ev) :
    Except IErr (List Pkg) × Seen :=
  match (Dict.get seen dep).filter (fun ps => !ps.isEmpty) with
  | some ps => (.ok (sortDown (ps.filter (fun p => spec.allows p.version))), seen)
  | none => match packagesOf env base dep page with
    | .error e => (.error e, seen)
    | .ok ps => (.ok (sortDown (ps.filter (fun p => spec.allows p.version))), Dict.put seen dep ps)

/-! ### PyPI -/

/-- A file of a release (pr 62-66, 124-133). -/
structure Rel where
  yanked : Bool := false
  kind : Option Text
  file : Option Text
  requires : Option Text := none
  url : Text
  digests : Option (Dict Text Text) := none

/-- `_create_artifact_from_pypi_release` (pr 124-133): nothing for a file without a name. -/
def createArtifact (env : UrlEnv) (r : Rel) : Except IErr (Option Art) :=
  match r.file with
  | none => .ok none
  | some [] => .ok none
  | some (c :: cs) => match readRequires env r.requires with
    | .error e => .error e
    | .ok q => .ok (some ⟨c :: cs, q, r.url⟩)

/-- The condition on a file (pr 63). -/
def relevant (r : Rel) : Bool := !r.yanked && (r.kind == some t!"sdist" || r.kind == some t!"bdist_wheel")

/-- `relevant_artifacts` (pr 61-65). -/
def relArtifacts (env : UrlEnv) : List Rel → Except IErr (List Art)
  | [] => .ok []
  | r :: rs =>
    if relevant r then
      match createArtifact env r with
      | .error e => .error e
      | .ok none => relArtifacts env rs
      | .ok (some a) => match relArtifacts env rs with
        | .error e => .error e
        | .ok as => .ok (a :: as)
    else relArtifacts env rs

/-- The loop over the releases (pr 59-73). -/
def pypiLoop (env : UrlEnv) (dep : Text) (spec : VSpec) : List (Text × List Rel) → Except IErr (List Pkg)
  | [] => .ok []
  | (vt, rs) :: rest =>
    match relArtifacts env rs with
    | .error e => .error e
    | .ok [] => pypiLoop env dep spec rest
    | .ok (a :: as) =>
      if spec.allows (parseVersion env vt) then
        match descriptorName dep with
        | none => .error .assertion
        | some n => match pypiLoop env dep spec rest with
          | .error e => .error e
          | .ok ps => .ok (⟨n, parseVersion env vt, a :: as⟩ :: ps)
      else pypiLoop env dep spec rest

/-- `PyPiRepository._do_match` (pr 45-75) for the JSON received. -/
def pypiMatch (env : UrlEnv) (dep : Text) (spec : VSpec) (releases : List (Text × List Rel)) :
    Except IErr (List Pkg) :=
  match pypiLoop env dep spec releases with
  | .error e => .error e
  | .ok ps => .ok (sortDown ps)

/-! ### downloads -/

/-- `PypiPackage._retrieve_artifact` (pr 92-110) for a file with a url that could be fetched: `valid f h` is
`resource.is_hash_valid(f, h)`. -/
def pypiRetrieve {D : Type} (digests : Option (Dict Text Text)) (valid : Text → Text → Bool) (d : D) : Except IErr D :=
  match digests with
  | none => .error .key
  | some [] => .ok d
  | some ((k, v) :: rest) =>
    match Dict.get ((k, v) :: rest) t!"sha256" with
    | some h => if valid t!"sha256" h then .ok d else .error .installation
    | none => if valid k v then .ok d else .error .installation

/-- `s.partition("=")` (sr 120): the text before and after the first `=`. -/
def partitionEq (s : Text) : Text × Text := (s.takeWhile (· != '='), (s.dropWhile (· != '=')).drop 1)

/-- `_SimplePackage._retrieve_artifact` (sr 113-125) for the fragment of the url. -/
def simpleRetrieve {D : Type} (fragment : Text) (valid : Text → Text → Bool) (d : D) : Except IErr D :=
  let (f, h) := partitionEq fragment
  if fragment.isEmpty || f.isEmpty || h.isEmpty || valid f h then .ok d else .error .installation

end Pkm.Index
