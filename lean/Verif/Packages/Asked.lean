/-
Model of the packages of repositories that are asked for their dependencies (`AbstractPackage`, pkm/src/pkm/api/packages/standard_package.py 115-145, "sp"), by
several threads; a step is one access to the shared dictionaries, or one retrieval or reading of a file. Parameters: which artifact is the best for an environment (sp
49-88, modelled in Repos and Tags), what the n-th retrieval gives (`_retrieve_artifact`; none if it raises), what the files say (`extract_metadata`: a wheel
has its metadata in it, wheel_distribution.py 84-97; of a source distribution it is computed in an environment, source_distribution.py 26-34) and which
dependencies apply (Markers). Artifacts stand for their `id`: the package keeps them, so that no two have the same. Retrieved paths are not empty.
-/
namespace Pkm
namespace Asked

variable {A E F D X : Type} [DecidableEq A]

/-- A package and the world around it. -/
structure Pack (A E F D X : Type) where
  best : E → Option A
  isWheel : A → Bool
  fetch : Nat → A → Option F
  wheelMeta : F → Option (List D)
  sourceMeta : F → E → Option (List D)
  applies : D → E → X → Bool

/-- The choice at sp 137-142. -/
def Pack.meta (P : Pack A E F D X) (a : A) (f : F) (e : E) : Option (List D) :=
  if P.isWheel a then P.wheelMeta f else P.sourceMeta f e

inductive Reply (D : Type) where
  | deps (ds : List D)
  /-- `UnsupportedOperation` (sp 130) -/
  | unsupported
  /-- an exception of retrieving or reading -/
  | failed
  deriving DecidableEq

/-- Where a thread is in `dependencies` (sp 122-145). -/
inductive At (A F D : Type) where
  /-- before sp 128 -/
  | ready
  /-- sp 133 -/
  | lookup (a : A)
  /-- sp 116 -/
  | path (a : A)
  /-- sp 117 -/
  | fetch (a : A)
  /-- sp 119 -/
  | keep (a : A) (f : F)
  /-- sp 136-142 -/
  | extract (a : A) (f : F)
  /-- sp 144 -/
  | note (a : A) (ds : List D)

/-- A thread: the questions it has still to ask (the first is being answered), and the replies it got. -/
structure Asker (A E F D X : Type) where
  todo : List (E × X)
  pc : At A F D
  replies : List ((E × X) × Reply D)

structure State (A E F D X : Type) where
  /-- `_dependencies_per_artifact_id` -/
  deps : A → Option (List D)
  /-- `_path_per_artifact_id` -/
  paths : A → Option F
  threads : List (Asker A E F D X)
  /-- retrievals: by whom, of what, with what result -/
  fetches : List (Nat × A × Option F)
  /-- readings of metadata -/
  extracts : List (Nat × A × Option (List D))

/-- `AbstractPackage.__init__` (sp 33-39), and threads that will use it. -/
def start (qs : List (List (E × X))) : State A E F D X :=
  ⟨fun _ => none, fun _ => none, qs.map (fun q => ⟨q, .ready, []⟩), [], []⟩

def put {V : Type} (f : A → Option V) (a : A) (v : V) : A → Option V := fun b => if b = a then some v else f b

/-- The call ends; `dependencies` keeps what applies (sp 125). -/
def Asker.finish (t : Asker A E F D X) (r : Reply D) : Asker A E F D X :=
  match t.todo with
  | [] => t
  | q :: rest => ⟨rest, .ready, t.replies ++ [(q, r)]⟩

def Pack.applying (P : Pack A E F D X) (q : E × X) (ds : List D) : Reply D := .deps (ds.filter (fun d => P.applies d q.1 q.2))

/-- A step of the thread `i`. -/
def step (P : Pack A E F D X) (s : State A E F D X) (i : Nat) : State A E F D X :=
  match s.threads[i]? with
  | none => s
  | some t =>
    match t.todo with
    | [] => s
    | q :: _ =>
      match t.pc with
      | .ready =>
        match P.best q.1 with
        | none => { s with threads := s.threads.set i (t.finish .unsupported) }
        | some a => { s with threads := s.threads.set i { t with pc := .lookup a } }
      | .lookup a =>
        match s.deps a with
        | some (d :: ds) => { s with threads := s.threads.set i (t.finish (P.applying q (d :: ds))) }
        | _ => { s with threads := s.threads.set i { t with pc := .path a } }
      | .path a =>
        match s.paths a with
        | some f => { s with threads := s.threads.set i { t with pc := .extract a f } }
        | none => { s with threads := s.threads.set i { t with pc := .fetch a } }
      | .fetch a =>
        match P.fetch s.fetches.length a with
        | some f => { s with threads := s.threads.set i { t with pc := .keep a f }, fetches := s.fetches ++ [(i, a, some f)] }
        | none => { s with threads := s.threads.set i (t.finish .failed), fetches := s.fetches ++ [(i, a, none)] }
      | .keep a f => { s with paths := put s.paths a f, threads := s.threads.set i { t with pc := .extract a f } }
      | .extract a f =>
        match P.meta a f q.1 with
        | some ds => { s with threads := s.threads.set i { t with pc := .note a ds }, extracts := s.extracts ++ [(i, a, some ds)] }
        | none => { s with threads := s.threads.set i (t.finish .failed), extracts := s.extracts ++ [(i, a, none)] }
      | .note a ds => { s with deps := put s.deps a ds, threads := s.threads.set i (t.finish (P.applying q ds)) }

/-- Steps in the given order. -/
def run (P : Pack A E F D X) (s : State A E F D X) (is : List Nat) : State A E F D X := is.foldl (step P) s

end Asked
end Pkm
