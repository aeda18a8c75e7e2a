/-
Model of the recursive building of source distributions:
 * pkm/src/pkm/build/external_builders.py (cited as "eb"), `build_wheel`
 * pkm/src/pkm/build/source_build_cache.py (cited as "sc"), `_get_or_build`

Not modelled: the build environments themselves, the processes of the build back-ends, archives. What a
build asks for while its build requirements are installed (eb 121-123, 134-136, by way of the resolver
and of `SourceDistribution.extract_metadata` / `install_to`) is given as a list of requests per package.
Installations are sequential. There is one target environment (one `markers_hash`) and one archive
per package, so the cache has one entry per package.
-/
namespace Pkm.Build

/-- What is asked of the cache: `get_or_build_meta` or `get_or_build_wheel` (sc 31-35). -/
inductive Kind where
  | metadata | wheel
  deriving DecidableEq, Repr

/-- A request for an artifact of a source distribution. `fresh`: the environment object passed has no
`_current_build_path` attribute, because it is not a build environment or because it was sent to another
process (`Environment.__getstate__`, environment.py 56-60). -/
structure Req (P : Type) where
  pkg : P
  kind : Kind
  fresh : Bool := false
  deriving DecidableEq, Repr

/-- The packages: what each build asks for, whether the back-end has the hook
`prepare_metadata_for_build_wheel`, whether its other hooks succeed. -/
structure Cfg (P : Type) where
  reqs : P → List (Req P)
  hook : P → Bool := fun _ => true
  works : P → Bool := fun _ => true

/-- Observed events: entering and leaving the monitored build of a package (eb 110, 155-162). -/
inductive Ev (P : Type) where
  | start (p : P)
  | done (p : P)
  | failed (p : P)
  deriving DecidableEq, Repr

/-- State: the cache directory (has METADATA, has a wheel), the dictionary `current_build_path` shared
by the builds below one root, and the events. -/
structure St (P : Type) where
  hasMeta : P → Bool := fun _ => false
  hasWheel : P → Bool := fun _ => false
  path : List P := []
  log : List (Ev P) := []

/-- `BuildError`s: a detected cycle, the missing metadata hook, any other; `fuel` is not an error of the
code but an unfinished computation. -/
inductive BErr (P : Type) where
  | cycle (path : List P) (p : P)
  | missingHook
  | backend
  | fuel
  deriving DecidableEq, Repr

variable {P : Type} [DecidableEq P]

/-- Requests one after the other, up to the first failure. -/
def runAll (ask : Req P → St P → Option (BErr P) × St P) : List (Req P) → St P → Option (BErr P) × St P
  | [], s => (none, s)
  | r :: rs, s =>
    match ask r s with
    | (some e, s') => (some e, s')
    | (none, s') => runAll ask rs s'

def St.event (s : St P) (e : Ev P) : St P := { s with log := s.log ++ [e] }

/-- The part of `build_wheel` after its requirements are installed (eb 138-162). -/
def finish (cfg : Cfg P) (p : P) (k : Kind) (s : St P) : Option (BErr P) × St P :=
  if k = .metadata ∧ cfg.hook p = false then (some .missingHook, s.event (.failed p))
  else if cfg.works p then (none, s.event (.done p))
  else (some .backend, s.event (.failed p))

/-- Storing the result (sc 78-93): metadata only, or a wheel together with its metadata. -/
def store (p : P) (k : Kind) (s : St P) : St P :=
  match k with
  | .metadata => { s with hasMeta := fun q => if q = p then true else s.hasMeta q }
  | .wheel => { s with hasMeta := fun q => if q = p then true else s.hasMeta q,
                       hasWheel := fun q => if q = p then true else s.hasWheel q }

/-- `metadata_file.exists()` and, for a wheel, a wheel beside it (sc 49-53). -/
def cached (p : P) (k : Kind) (s : St P) : Bool :=
  s.hasMeta p && (decide (k = .metadata) || s.hasWheel p)

/-- `shutil.rmtree(base_cache_dir)` (sc 55-56). -/
def clear (p : P) (s : St P) : St P :=
  { s with hasMeta := fun q => if q = p then false else s.hasMeta q,
           hasWheel := fun q => if q = p then false else s.hasWheel q }

/-- The dictionary a build uses (eb 95-96): that of the target environment, or a new one which is then
dropped. -/
def withPath (fresh : Bool) (run : St P → Option (BErr P) × St P) (s : St P) : Option (BErr P) × St P :=
  if fresh then
    match run { s with path := [] } with
    | (e, s') => (e, { s' with path := s.path })
  else run s

/-- The `try` with the second attempt for back-ends without the metadata hook (sc 65-73), and the
result stored. -/
def attempt (build : P → Kind → St P → Option (BErr P) × St P) (r : Req P) (s : St P) :
    Option (BErr P) × St P :=
  match withPath r.fresh (build r.pkg r.kind) s with
  | (none, s') => (none, store r.pkg r.kind s')
  | (some e, s') =>
    if e = .missingHook ∧ r.kind = .metadata then
      match withPath r.fresh (build r.pkg .wheel) s' with
      | (none, s'') => (none, store r.pkg .wheel s'')
      | (some e', s'') => (some e', s'')
    else (some e, s')

/-- `_get_or_build` (sc 37-93). -/
def askWith (build : P → Kind → St P → Option (BErr P) × St P) (r : Req P) (s : St P) :
    Option (BErr P) × St P :=
  if cached r.pkg r.kind s then (none, s) else attempt build r (clear r.pkg s)

/-- `build_wheel` (eb 79-162). -/
def build (cfg : Cfg P) : Nat → P → Kind → St P → Option (BErr P) × St P
  | 0, _, _, s => (some .fuel, s)
  | f + 1, p, k, s =>
    if p ∈ s.path then (some (.cycle s.path p), s)
    else
      match runAll (askWith (build cfg f)) (cfg.reqs p) { s with path := s.path ++ [p], log := s.log ++ [.start p] } with
      | (some e, s') => (some e, s'.event (.failed p))
      | (none, s') => finish cfg p k s'

/-- A request from outside of any build. -/
def ask (cfg : Cfg P) (f : Nat) (p : P) (k : Kind) (s : St P) : Option (BErr P) × St P :=
  askWith (build cfg f) ⟨p, k, true⟩ s

end Pkm.Build
