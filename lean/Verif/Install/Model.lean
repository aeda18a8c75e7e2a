import Verif.Dict
import Verif.Sort
import Verif.Specifier.Model
/-
Model of pkm/src/pkm/api/packages/package_installation.py ("pi") and of the package graph functions of
pkm/src/pkm/api/packages/site_packages.py ("st").

A package is seen through its `name_key`, version, store mode and user request. User requests
(`Dependency` objects) are of an arbitrary type `D` with decidable equality; like every object without
`__bool__` they are truthy. Every operation on one package is one atomic step: the operations of a plan
run concurrently in threads or processes, each on the files of its own package. Not modelled: the
packages' files (see the `Files` model), failures in the middle of an operation, progress monitors.
-/
namespace Pkm
namespace Install

/-- `StoreMode` (package_installation_info.py 10-14). -/
inductive StoreMode where
  | editable | copy | auto
  deriving DecidableEq, Repr

variable {D : Type} [DecidableEq D]

/-- `InstalledPackage` (st 132-178): what the site says about a package. -/
structure Inst (D : Type) where
  /-- `name_key` -/
  key : Text
  version : Ver
  /-- `installation_info.store_mode` -/
  store : StoreMode
  /-- `user_request` -/
  request : Option D
  deriving DecidableEq, Repr

/-- The packages that a plan may contain: already installed ones (`InstalledPackage`, or the
`_RemovalPackage` wrapped around it, pi 382-411), packages of a repository, and the artificial
`_UserRequestPackage` (pi 342-360). -/
inductive Pkg (D : Type) where
  | installed (i : Inst D)
  | repo (key : Text) (version : Ver)
  | userRequest
  deriving DecidableEq, Repr

/-- The `name_key` of "installation request" (pi 344). -/
def requestKey : Text := "installation_request".toList

namespace Pkg
/-- `name_key`. -/
def key : Pkg D → Text
  | installed i => i.key
  | repo k _ => k
  | userRequest => requestKey

/-- `version` (pi 344 for the request). -/
def version : Pkg D → Ver
  | installed i => i.version
  | repo _ v => v
  | userRequest => .std { release := [0], epoch := none, pre := none, post := none, dev := none, loc := none }

/-- `isinstance(p, _UserRequestPackage)`. -/
def isUserRequest : Pkg D → Bool
  | userRequest => true
  | _ => false
end Pkg

/-- `PackageOperation` (pi 199-203). -/
inductive Op where
  | install | update | remove | skip
  deriving DecidableEq, Repr

/-- `{key(x): x for x in xs}`. -/
def dictBy {K V : Type} [DecidableEq K] (key : V → K) (xs : List V) : Dict K V :=
  xs.foldl (fun d x => d.put (key x) x) []

/-- `InstallationPlan` (pi 206-212). -/
structure Plan (D : Type) where
  packages : List (Pkg D)
  requests : Dict Text D
  storeModes : Dict Text StoreMode

/-- `store_mode_matching` (pi 239-241). -/
def storeOk (plan : Plan D) (pre : Inst D) (p : Pkg D) : Bool :=
  let storeMode := (Dict.get plan.storeModes p.key).getD .auto
  storeMode == .auto || storeMode == pre.store

/-- `user_request_matching` (pi 242-244). -/
def requestOk (plan : Plan D) (pre : Inst D) : Bool :=
  match Dict.get plan.requests pre.key with
  | none => true
  | some r => decide (pre.request = some r)

/-- The decision for one package that is installed as `pre` and planned as `p` (pi 237-256). -/
def decideOp (plan : Plan D) (pre : Inst D) (p : Pkg D) : Pkg D × Op :=
  if pre.version.eqv p.version then
    if storeOk plan pre p && requestOk plan pre then (p, .skip)
    else if storeOk plan pre p && !requestOk plan pre then (.installed pre, .update)
    else (p, .update)
  else (p, .update)

/-- The first loop of `compute_operations_for_target` (pi 235-258): the operations and what is left of
`preinstalled`. `operations` is a dictionary keyed by package objects (which are compared by identity);
no object occurs twice as the packages have different name keys, so it is a list here. -/
def opsLoop (plan : Plan D) : List (Text × Pkg D) → Dict Text (Inst D) →
    List (Pkg D × Op) × Dict Text (Inst D)
  | [], pre => ([], pre)
  | (k, p) :: rest, pre =>
    match Dict.get pre k with
    | some i =>
      let (ops, left) := opsLoop plan rest (Dict.del pre k)
      (decideOp plan i p :: ops, left)
    | none =>
      let (ops, left) := opsLoop plan rest pre
      ((p, .install) :: ops, left)

/-- `compute_operations_for_target` (pi 217-263); `installed` is the list of the target's installed
packages. -/
def computeOps (plan : Plan D) (installed : List (Inst D)) : List (Pkg D × Op) :=
  let preinstalled := dictBy Inst.key installed
  let toinstall := dictBy Pkg.key (plan.packages.filter (fun p => !p.isUserRequest))
  let (ops, left) := opsLoop plan toinstall preinstalled
  ops ++ (Dict.values left).map (fun i => (.installed i, .remove))

/-- The store mode written by `install_to`: `auto` is resolved by the package (standard_package.py 105:
to `COPY`; a source project resolves it to `EDITABLE`). -/
def resolveStore (auto : Text → StoreMode) (k : Text) : StoreMode → StoreMode
  | .auto => auto k
  | m => m

/-- What one task does to the entry of its package in the site (pi 282-288, 315-339): `cur` is the
entry before, the result the entry after, the outer `none` an exception.
* `install_to` of a repository package (standard_package.py 101-113) writes a new entry; on an
  `InstalledPackage` it does nothing in its own site (st 188-192, here: for an entry that is there).
* `update_at` of a repository package (package.py 184-199) keeps the old user request if there is no
  new one, uninstalls and installs; on an `InstalledPackage` (st 200-206) it sets or removes the
  "user requested" mark.
* `uninstall` (st 208-236) removes the entry; it is not supported for other packages (package.py 181).
-/
def effect (auto : Text → StoreMode) (plan : Plan D) (t : Pkg D × Op) (cur : Option (Inst D)) :
    Option (Option (Inst D)) :=
  let storeMode := (Dict.get plan.storeModes t.1.key).getD .auto
  let request := Dict.get plan.requests t.1.key
  match t with
  | (_, .skip) => some cur
  | (.repo k v, .install) => some (some ⟨k, v, resolveStore auto k storeMode, request⟩)
  | (.repo k v, .update) =>
    let request := match request with
      | some r => some r
      | none => cur.bind (·.request)
    some (some ⟨k, v, resolveStore auto k storeMode, request⟩)
  | (.installed _, .install) => if cur.isSome then some cur else none
  | (.installed _, .update) => some (cur.map (fun i => { i with request := request }))
  | (.installed _, .remove) => some none
  | (.userRequest, .install) => some cur
  | _ => none

/-- One task. -/
def runTask (auto : Text → StoreMode) (plan : Plan D) (site : Dict Text (Inst D)) (t : Pkg D × Op) :
    Option (Dict Text (Inst D)) :=
  match effect auto plan t (Dict.get site t.1.key) with
  | none => none
  | some none => some (Dict.del site t.1.key)
  | some (some i) => some (Dict.put site t.1.key i)

/-- All the tasks, in the order in which they happen to be executed. -/
def runTasks (auto : Text → StoreMode) (plan : Plan D) : List (Pkg D × Op) → Dict Text (Inst D) →
    Option (Dict Text (Inst D))
  | [], site => some site
  | t :: ts, site => (runTask auto plan site t).bind (runTasks auto plan ts)

/-- The tasks of `InstallationPlan.execute` (pi 280-288). -/
def tasks (plan : Plan D) (installed : List (Inst D)) : List (Pkg D × Op) :=
  (computeOps plan installed).filter (fun t => decide (t.2 ≠ .skip))

/-! ### planning -/

inductive PErr where
  /-- `UnsolvableProblemException` -/
  | unsolvable
  /-- `max()` of an empty list -/
  | valueError
  /-- an exception of `create_range` (none is possible, see `latest_offered`) -/
  | spec (e : Err)
  deriving DecidableEq, Repr

/-- What planning looks at in a `Dependency`. -/
structure DepInfo (D : Type) where
  /-- `package_name_key` -/
  key : D → Text
  /-- `version_spec is AllowAllVersions` -/
  unspecified : D → Bool

/-- `max(packages, key=lambda it: it.version)`: the first one that no later one exceeds. -/
def maxLoop : List (Pkg D) → Pkg D → Pkg D
  | [], best => best
  | p :: ps, best => maxLoop ps (if best.version.lt p.version then p else best)

/-- The version range that `match` accepts for a new package without a version (pi 443-449). -/
def latestLimit (m : Ver) : Except Err VSpec :=
  match m with
  | .std v => VSpec.createRange (some v.withoutPatch) Option.none true false
  | _ => .ok (.vmatch m true)

/-- `_InstallationRepository.match` (pi 427-451) for a dependency object. -/
def installMatch (I : DepInfo D) (repo : D → List (Pkg D)) (installed : Dict Text (Inst D))
    (unspecified : List Text) (fast : Bool) (d : D) : Except PErr (List (Pkg D)) :=
  if I.key d = requestKey then .ok [.userRequest]
  else
    match Dict.get installed (I.key d) with
    | some i =>
      if fast then .ok [.installed i]
      else
        let key := fun (p : Pkg D) => if i.version.eqv p.version then 0 else 1
        .ok (sortBy (fun a b => decide (key a ≤ key b)) (repo d))
    | none =>
      if fast && unspecified.contains (I.key d) then
        match repo d with
        | [] => .error .valueError
        | p :: ps =>
          match latestLimit (maxLoop ps p).version with
          | .error e => .error (.spec e)
          | .ok limit => .ok ((p :: ps).filter (fun q => limit.allows q.version))
      else .ok (repo d)

/-- A dependency resolver: given `match` and the requests of the artificial root package, the resolved
packages. `resolve_dependencies(request, target, repository)` (the resolver itself is the subject of
C14 to C18). -/
abbrev Resolver (D : Type) := (D → Except PErr (List (Pkg D))) → List D → Except PErr (List (Pkg D))

/-- `pre_requested_deps` (pi 151). -/
def preRequested (pre : List (Inst D)) : Dict Text D :=
  pre.foldl (fun d p => match p.request with | some r => Dict.put d p.key r | none => d) []

/-- `{**a, **b}`, `a.update(b)`. -/
def merge {V : Type} (a b : Dict Text V) : Dict Text V := b.foldl (fun d e => d.put e.1 e.2) a

/-- `plan_installation` (pi 125-196) without `dependencies_override`; `fastR` and `slowR` are the two
calls of the resolver (the second one drops the override, pi 189-190). `installed` are the packages of
the site. -/
def planInstallation (I : DepInfo D) (fastR slowR : Resolver D) (repo : D → List (Pkg D))
    (installed : List (Inst D)) (deps : List D) (userRequested : Bool) (updates : List Text)
    (unspecifiedPkgs : List Text) : Except PErr (Plan D) :=
  let pre := installed.filter (fun p => !updates.contains p.key)
  let preReq := preRequested pre
  let unspecified := if unspecifiedPkgs.isEmpty then (deps.filter I.unspecified).map I.key else unspecifiedPkgs
  let newDeps := dictBy I.key deps
  let allDeps := merge preReq newDeps
  let requests := if userRequested then merge preReq newDeps else preReq
  match fastR (installMatch I repo (dictBy Inst.key pre) unspecified true) (Dict.values newDeps) with
  | .ok inst =>
    let names := inst.map Pkg.key
    let inst := inst ++ (pre.filter (fun p => !names.contains p.key)).map Pkg.installed
    .ok ⟨inst, requests, []⟩
  | .error .unsolvable =>
    match slowR (installMatch I repo (dictBy Inst.key pre) unspecified false) (Dict.values allDeps) with
    | .ok inst => .ok ⟨inst, requests, []⟩
    | .error e => .error e
  | .error e => .error e

/-! ### uninstall -/

/-- `requested_deps` (pi 76): `nameOf` gives the `name` of the installed package with a given key. -/
def requestedDeps (nameOf : Text → Text) (installed : List (Inst D)) : Dict Text D :=
  installed.foldl (fun d p =>
    match p.request with
    | some r => Dict.put d (nameOf p.key) r
    | none => d) []

/-- `installed_package(name).dist_info.unmark_as_user_requested()` (pi 90) for one of the kept packages;
`normal` is the `package_name_key` used by `installed_package`. A package that is not found is `None`,
hence the exception. -/
def unmark (normal : Text → Text) (keptNames : List Text) (site : Dict Text (Inst D)) (p : Text) :
    Option (Dict Text (Inst D)) :=
  if keptNames.contains p then
    match Dict.get site (normal p) with
    | some i => some (Dict.put site (normal p) { i with request := none })
    | none => none
  else some site

/-- `PackageInstallationTarget.uninstall` (pi 60-93). `resolve` gives, for the remaining user requests,
the keys of the packages that the resolver selects out of the installed ones (`_RemovalRepository`, pi
363-379: one candidate per package); it is the subject of C14 to C18. The packages that it selects are
`_RemovalPackage`s around installed ones. The result: the site afterwards and the returned set of
names; `none`: an exception. -/
def uninstall (resolve : List D → Option (List Text)) (nameOf normal : Text → Text)
    (auto : Text → StoreMode) (installed : List (Inst D)) (remove : List Text) :
    Option (Dict Text (Inst D) × List Text) :=
  let requested := remove.foldl Dict.del (requestedDeps nameOf installed)
  match resolve (Dict.values requested) with
  | none => none
  | some kept =>
    let before := dictBy Inst.key installed
    let plan : Plan D := ⟨kept.filterMap (fun k => (Dict.get before k).map Pkg.installed), [], []⟩
    match runTasks auto plan (tasks plan installed) before with
    | none => none
    | some site =>
      let keptNames := kept.map nameOf
      match remove.foldlM (unmark normal keptNames) site with
      | none => none
      | some site => some (site, remove.filter (fun p => !keptNames.contains p))

end Install

/-! ### the graph of installed packages -/

namespace Install

/-- An installed package in the package graph: `name_key`, whether it has a user request, and the name
keys of the dependencies in its metadata (`published_metadata.dependencies`) with their applicability
for the environment. -/
structure GNode where
  key : Text
  requested : Bool
  /-- `package_name_key` of every dependency, and `is_applicable_for(env)` -/
  deps : List (Text × Bool)
  deriving DecidableEq, Repr

/-- `SitePackages._name_to_packages` (st 78-90). -/
abbrev SiteG := Dict Text GNode

/-- The loop of `find_orphan_packages` (st 107-116); the stack's top is the head of the list. `none`:
out of fuel. -/
def orphanLoop (site : SiteG) : Nat → List GNode → List Text → Dict Text GNode → Option (Dict Text GNode)
  | 0, _, _, _ => none
  | fuel + 1, requested, done, orphans =>
    match requested with
    | [] => some orphans
    | next :: rest =>
      if next.key ∈ done then orphanLoop site fuel rest done orphans
      else
        let found := next.deps.filterMap (fun d => Dict.get site d.1)
        orphanLoop site fuel (found.reverse ++ rest) (next.key :: done) (Dict.del orphans next.key)

/-- A number of steps that is enough for `orphanLoop` (see `find_orphans_total`). -/
def orphanFuel (site : SiteG) : Nat :=
  ((Dict.values site).map (fun p => 2 + p.deps.length)).sum + 1

/-- `find_orphan_packages` (st 101-118). -/
def findOrphans (site : SiteG) : Option (List GNode) :=
  let installed := Dict.values site
  let requested := installed.filter (·.requested)
  (orphanLoop site (orphanFuel site) requested.reverse [] (dictBy GNode.key installed)).map Dict.values

/-- The function `collect` of `installation_tree_of` (st 66-70); `none`: out of fuel. -/
def collect (site : SiteG) : Nat → Dict Text GNode → GNode → Option (Dict Text GNode)
  | 0, _, _ => none
  | fuel + 1, c, p =>
    if Dict.has c p.key then some c
    else
      let found := (p.deps.filter (·.2)).filterMap (fun d => Dict.get site d.1)
      found.foldlM (collect site fuel) (Dict.put c p.key p)

/-- `installation_tree_of` (st 58-76); `key` is the name key of the argument. -/
def installationTree (site : SiteG) (key : Text) : Option (List GNode) :=
  match Dict.get site key with
  | none => some []
  | some p => (collect site (site.length + 1) [] p).map Dict.values

end Install
end Pkm
