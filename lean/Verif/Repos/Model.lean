import Verif.Collections.Model
import Verif.Specifier.Model
/-
Model of the repository layer: pkm/src/pkm/api/repositories/repository.py ("rp"),
repository_loader.py ("rl"), repository_management.py ("rm") and
pkm/src/pkm/api/packages/standard_package.py ("sp").

The environment is fixed. A package is of an arbitrary type `P`; what repositories ask about it
(compatibility with the environment, version) is given as functions.
-/
namespace Pkm
namespace Repos

/-- What a repository looks at in a `Dependency`. -/
structure Query where
  /-- `package_name` -/
  name : Text
  /-- `required_url()`, its protocol -/
  url : Option Text
  /-- `version_spec.allows_pre_or_dev_releases()` -/
  allowsPre : Bool
  deriving DecidableEq, Repr

inductive RErr where
  | noSuchElement
  | typeError
  | keyError
  deriving DecidableEq, Repr

variable {P : Type}

/-- `AbstractRepository._filter_prereleases` (rp 85-89). -/
def filterPre (isPre : P → Bool) (packages : List P) (allows : Bool) : List P :=
  if allows then packages
  else
    let rest := (Coll.partition packages isPre).2
    if rest.isEmpty then packages else rest

/-- The properties of packages used by `AbstractRepository`. -/
structure PkgInfo (P : Type) where
  /-- `is_compatible_with(env)` -/
  compatible : P → Bool
  /-- `version.is_pre_or_dev_release()` -/
  isPre : P → Bool

/-- `AbstractRepository.match` (rp 73-78) for a given result of `_do_match`. -/
def abstractMatch (I : PkgInfo P) (q : Query) (found : List P) : List P :=
  filterPre I.isPre (found.filter I.compatible) q.allowsPre

/-- A repository: name, `accept_non_url_packages()`, `accepted_url_protocols()` and `match`. -/
structure Repo (P : Type) where
  name : Text
  acceptNonUrl : Bool
  protocols : List Text
  find : Query → Except RErr (List P)

/-- Try the repositories in order and return the first non-empty answer (rl 164-166, 175-177). -/
def firstNonEmpty (q : Query) : List (Repo P) → Except RErr (Option (List P))
  | [] => .ok none
  | r :: rs =>
    match r.find q with
    | .error e => .error e
    | .ok found => if found.isEmpty then firstNonEmpty q rs else .ok (some found)

/-- `_CompositeRepository._do_match` (rl 161-179) with the constructor (rl 145-159): `search` are the
repositories passed to the constructor. `raise []` (rl 167) is a `TypeError`. -/
def compositeDoMatch (search : List (Repo P)) (bindOnly : List Text) (bindings : Dict Text Text)
    (q : Query) : Except RErr (List P) :=
  let searchList := search.filter (·.acceptNonUrl)
  match q.url with
  | some protocol =>
    match firstNonEmpty q (search.filter (fun r => r.protocols.contains protocol)) with
    | .error e => .error e
    | .ok (some found) => .ok found
    | .ok none => .error .typeError
  | none =>
    match (Dict.get bindings q.name).filter (fun n => !n.isEmpty) with
    | some repoName =>
      match searchList.find? (fun r => r.name == repoName) with
      | none => .error .noSuchElement
      | some r => r.find q
    | none =>
      match firstNonEmpty q (searchList.filter (fun r => !bindOnly.contains r.name)) with
      | .error e => .error e
      | .ok (some found) => .ok found
      | .ok none => .ok []

/-- `_CompositeRepository` (rl 144-182). Protocols: `_url_handlers.keys()`. -/
def composite (I : PkgInfo P) (name : Text) (search : List (Repo P)) (bindOnly : List Text)
    (bindings : Dict Text Text) : Repo P where
  name := name
  acceptNonUrl := true
  protocols := search.flatMap (·.protocols)
  find := fun q => (compositeDoMatch search bindOnly bindings q).map (abstractMatch I q)

/-! ### configuration and loading -/

/-- `RepositoriesConfigInheritanceMode`. -/
inductive Mode where
  | context | global | noInherit
  deriving DecidableEq, Repr

/-- `RepositoryInstanceConfig` (repositories_configuration.py 20-25); `args` is an opaque value that
stands for the dictionary. -/
structure RepoDef where
  type : Text
  bindOnly : Bool
  args : Nat
  deriving DecidableEq, Repr

/-- A value of `package-bindings`: a repository name, or an inline repository (whose `type` key is
read with `pop`). -/
inductive Binding where
  | repo (name : Text)
  | inline (type : Text) (args : Nat)
  deriving DecidableEq, Repr

/-- `RepositoriesConfiguration` (repositories_configuration.py 28-36). -/
structure RepoConfig where
  repos : Dict Text RepoDef
  mode : Mode
  bindings : Dict Text Binding
  deriving Repr

/-- `_cached_instances` keyed by builder type and arguments (rl 121-141). -/
abbrev Cache (P : Type) := Dict (Text × Nat) (Repo P)

/-- `self._builders`: per known type, how to build a repository from a name and arguments. -/
abbrev Builders (P : Type) := Text → Option (Text → Nat → Repo P)

/-- `RepositoryLoader.build` (rl 121-129). -/
def build (B : Builders P) (c : Cache P) (name type : Text) (args : Nat) :
    Except RErr (Repo P × Cache P) :=
  match Dict.get c (type, args) with
  | some r => .ok (r, c)
  | none =>
    match B type with
    | none => .error .keyError
    | some b => .ok (b name args, Dict.put c (type, args) (b name args))

/-- The first loop of `RepositoryLoader.load` (rl 92-96). -/
def loadRepos (B : Builders P) : List (Text × RepoDef) → Cache P →
    Except RErr (List (Repo P) × List Text × Cache P)
  | [], c => .ok ([], [], c)
  | (n, d) :: ds, c =>
    match build B c n d.type d.args with
    | .error e => .error e
    | .ok (r, c) =>
      match loadRepos B ds c with
      | .error e => .error e
      | .ok (rs, bo, c) => .ok (r :: rs, if d.bindOnly then n :: bo else bo, c)

/-- The second loop of `RepositoryLoader.load` (rl 103-112): extra search entries, extra bind-only
names and the bindings. `name` is the name of the composite repository. -/
def loadBindings (B : Builders P) (name : Text) : List (Text × Binding) → Cache P →
    Except RErr (List (Repo P) × List Text × Dict Text Text × Cache P)
  | [], c => .ok ([], [], [], c)
  | (p, .repo n) :: bs, c =>
    match loadBindings B name bs c with
    | .error e => .error e
    | .ok (rs, bo, m, c) => .ok (rs, bo, (p, n) :: m, c)
  | (p, .inline t a) :: bs, c =>
    match build B c name t a with
    | .error e => .error e
    | .ok (r, c) =>
      match loadBindings B name bs c with
      | .error e => .error e
      | .ok (rs, bo, m, c) => .ok (r :: rs, r.name :: bo, (p, r.name) :: m, c)

/-- `RepositoryLoader.load` (rl 88-119). `next` is `next_in_context` (may be `None` in Python; here
only used when the chain has a successor). -/
def load (I : PkgInfo P) (B : Builders P) (globalRepo : Repo P) (c : Cache P) (name : Text)
    (cfg : RepoConfig) (next : Repo P) : Except RErr (Repo P × Cache P) :=
  match loadRepos B cfg.repos c with
  | .error e => .error e
  | .ok (rs, bo, c) =>
    let inherited := match cfg.mode with
      | .context => [next]
      | .global => [globalRepo]
      | .noInherit => []
    match loadBindings B name cfg.bindings c with
    | .error e => .error e
    | .ok (rs', bo', m, c) =>
      let search := rs ++ inherited ++ rs'
      if search.isEmpty then .ok ((if cfg.mode = .global then globalRepo else next), c)
      else .ok (composite I name search (bo ++ bo') m, c)

/-! ### the lookup chain -/

/-- The loop of `package_lookup_chain` (rm 63-76). `pending` is a stack whose end is the head of the
list here. `none`: out of fuel. -/
def chainLoop {N H : Type} [DecidableEq H] (path : N → H) (parents : N → List (N × Bool)) :
    Nat → List (N × Bool) → List H → Option (List N)
  | 0, _, _ => none
  | fuel + 1, pending, closed =>
    match pending with
    | [] => some []
    | (r, inherit) :: rest =>
      if path r ∈ closed then chainLoop path parents fuel rest closed
      else
        let pending' := if inherit then (parents r).reverse ++ rest else rest
        (chainLoop path parents fuel pending' (path r :: closed)).map (r :: ·)

/-- `package_lookup_chain` (rm 57-76). -/
def lookupChain {N H : Type} [DecidableEq H] (path : N → H) (parents : N → List (N × Bool))
    (mode : N → Mode) (globalMan : N) (fuel : Nat) (self : N) : Option (List N) :=
  match mode self with
  | .global => some [globalMan]
  | .noInherit => some [self]
  | .context => chainLoop path parents fuel [(self, true)] []

/-- `all_repositories` (rm 145-147) on a chain of configurations. -/
def allRepositories (chain : List RepoConfig) : List (Text × RepoDef) :=
  Coll.uniqueBy (chain.flatMap (·.repos)) (·.1)

/-- `remove_repository` (rm 149-153). -/
def removeRepository (cfg : RepoConfig) (name : Text) : RepoConfig :=
  { cfg with
    repos := Dict.del cfg.repos name
    bindings := cfg.bindings.filter (fun b => decide (b.2 ≠ .repo name)) }

/-- `register_bindings` (rm 99-114); `none`: unregister. `{**a, **b}` keeps the place of old keys. -/
def registerBindings (cfg : RepoConfig) (packages : List Text) (repo : Option Binding) : RepoConfig :=
  match repo with
  | some b => { cfg with bindings := packages.foldl (fun d p => Dict.put d p b) cfg.bindings }
  | none => { cfg with bindings := cfg.bindings.filter (fun e => !packages.contains e.1) }

/-! ### artifacts -/

/-- `PackageArtifact` (sp 21-25). -/
structure Artifact where
  fileName : Text
  requires : Option VSpec

/-- `is_binary` (sp 27-28). -/
def Artifact.isBinary (a : Artifact) : Bool := ['.', 'w', 'h', 'l'].isSuffixOf a.fileName

/-- Whether `requires_python` lets the interpreter through (sp 68-76). -/
def Artifact.pythonOk (interp : Ver) (a : Artifact) : Bool :=
  match a.requires with
  | none => true
  | some s => s.allows interp

/-- The loop of `best_artifact_for` (sp 62-88): source, best binary with its score. `score` is
`compatibility_tag_score` of the tags in the file name. -/
def bestLoop {S : Type} (interp : Ver) (score : Text → Option S) (lt : S → S → Bool) :
    List Artifact → Option Artifact → Option (Artifact × S) → Option Artifact
  | [], source, best =>
    match best with
    | some (a, _) => some a
    | none => source
  | a :: as, source, best =>
    if a.pythonOk interp then
      if a.isBinary then
        match score a.fileName with
        | none => bestLoop interp score lt as source best
        | some s =>
          match best with
          | none => bestLoop interp score lt as source (some (a, s))
          | some (b, t) => bestLoop interp score lt as source (if lt t s then some (a, s) else some (b, t))
      else bestLoop interp score lt as (some a) best
    else bestLoop interp score lt as source best

/-- `best_artifact_for` (sp 49-88). -/
def bestArtifact {S : Type} (interp : Ver) (score : Text → Option S) (lt : S → S → Bool)
    (artifacts : List Artifact) : Option Artifact := bestLoop interp score lt artifacts none none

end Repos
end Pkm
