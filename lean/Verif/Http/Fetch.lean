import Verif.Text
/-
Model of `HttpClient.fetch_resource` (pkm/src/pkm/utils/http/http_client.py 383-460, "http" below) and of the
cache directives (cache_directive.py, "cd") for one URL text, with any number of threads in any interleaving.

A step is one critical section, the decision of `_fetch`, the exchange with the server including the storing
of the response (see Request.lean and Cache.lean for their inner steps), or the completion of the promise (see
Concurrency/Promise.lean). Times are numbers. Not modelled: exceptions that are not `Exception`s (an interrupt
leaves the promise uncompleted), monitoring, the headers, `clear_resources`.
-/
namespace Pkm
namespace Http

/-- The directives (cd 30-81). -/
inductive Directive where
  | always
  | askForUpdate
  | retrievedAfter (t : Nat)
  | never
  deriving DecidableEq, Repr

/-- The stored resource: its content, `fetch_time`, and the time of its retrieval (which the code does not
store; used to state properties only). -/
structure Stored where
  content : Nat
  stamp : Nat
  retrieved : Nat
  deriving DecidableEq, Repr

/-- `is_cache_valid` (cd 34, 43, 60-67, 75). -/
def Directive.valid : Directive → Stored → Bool
  | .always, _ => true
  | .askForUpdate, _ => false
  | .retrievedAfter t, s => decide (t ≤ s.stamp)
  | .never, _ => false

/-- What the exchange with the server leads to. -/
inductive Answer where
  /-- status 200 with its content, the headers `last-modified` and `date`, and the time now; it is stored -/
  | ok (content : Nat) (lastModified date : Option Nat) (now : Nat)
  /-- status 304 -/
  | notModified
  /-- an exception; `deleted`: while storing the response, which deletes the stored files -/
  | failed (deleted : Bool)
  deriving DecidableEq, Repr

/-- What `fetch_resource` gives: the stored content, the path of files that do not exist, or an exception. -/
inductive FRes where
  | content (c : Nat)
  | noFiles
  | error
  deriving DecidableEq, Repr

/-- Where a thread is; `p` is the number of its promise. -/
inductive FPC where
  | idle
  /-- the promise is made (http 448-449), before `FetchInfoConfig.load` and the decision (http 406-412) -/
  | working (p : Nat) (d : Directive)
  /-- in the request (http 417-438) -/
  | requesting (p : Nat)
  /-- `finally` (http 439-442) -/
  | releasing (p : Nat) (r : FRes)
  /-- `deffered.complete` or `deffered.fail` (http 455-458) -/
  | completing (p : Nat) (r : FRes)
  /-- `promise.result()` of a promise found in the table (http 451-453) -/
  | waiting (p : Nat)
  deriving DecidableEq, Repr

structure FThread where
  pc : FPC
  prog : List Directive
  deriving DecidableEq, Repr

/-- What can be observed. -/
inductive FEv where
  | began (thread : Nat)
  /-- the server is contacted -/
  | contact (thread : Nat)
  /-- the download is over -/
  | finished (r : FRes)
  | returned (thread : Nat) (r : FRes)
  /-- `KeyError` of `del self._fetch_inprogress[url]` -/
  | keyError (thread : Nat)
  deriving DecidableEq, Repr

/-- The entry of `_fetch_inprogress`, the promises, the stored resource, whether its info file cannot be read,
the threads and what was observed so far (latest first). -/
structure FState where
  entry : Option Nat
  promises : List (Option FRes)
  stored : Option Stored
  broken : Bool
  threads : List FThread
  log : List FEv
  deriving DecidableEq, Repr

namespace FState

def init (stored : Option Stored) (broken : Bool) (progs : List (List Directive)) : FState :=
  ⟨none, [], stored, broken, progs.map (fun p => ⟨.idle, p⟩), []⟩

def setPC (s : FState) (i : Nat) (th : FThread) (pc : FPC) : FState :=
  { s with threads := s.threads.set i { th with pc := pc } }

def say (s : FState) (e : FEv) : FState := { s with log := e :: s.log }

/-- The number of contacts with the server so far. -/
def contacts (s : FState) : Nat := (s.log.filter (fun e => match e with | .contact _ => true | _ => false)).length

/-- What is returned for the files as they are (http 446). -/
def current (s : FState) : FRes :=
  match s.stored with
  | some c => .content c.content
  | none => .noFiles

/-- The effect of the exchange (http 428-433, `save` http 245-268). -/
def answer (s : FState) : Answer → FState × FRes
  | .ok c lm date now => ({ s with stored := some ⟨c, lm.getD (date.getD now), now⟩, broken := false }, .content c)
  | .notModified => (s, s.current)
  | .failed deleted => (if deleted then { s with stored := none, broken := false } else s, .error)

/-- One step of thread `i`; `none`: the thread cannot step now. `srv k` is the answer to the `k`-th contact. -/
def step (srv : Nat → Answer) (s : FState) (i : Nat) : Option FState :=
  match s.threads[i]? with
  | none => none
  | some th =>
    match th.pc with
    | .idle =>
      match th.prog with
      | [] => none
      | d :: rest =>
        -- the critical section (http 395-449)
        match s.entry with
        | some p => some (({ s with threads := s.threads.set i ⟨.waiting p, rest⟩ }).say (.began i))
        | none =>
          some (({ s with entry := some s.promises.length, promises := s.promises ++ [none],
                          threads := s.threads.set i ⟨.working s.promises.length d, rest⟩ }).say (.began i))
    | .working p d =>
      if s.broken then some (s.setPC i th (.completing p .error))
      else
        match s.stored with
        | some c =>
          if d.valid c then some (s.setPC i th (.completing p (.content c.content)))
          else some ((s.setPC i th (.requesting p)).say (.contact i))
        | none => some ((s.setPC i th (.requesting p)).say (.contact i))
    | .requesting p =>
      let (s', r) := s.answer (srv (s.contacts - 1))
      some (s'.setPC i th (.releasing p r))
    | .releasing p r =>
      match s.entry with
      | some _ => some ((({ s with entry := none }).setPC i th (.completing p r)).say (.finished r))
      | none => some ((s.setPC i th (.completing p .error)).say (.keyError i))
    | .completing p r =>
      some ((({ s with promises := s.promises.set p (some r) }).setPC i th .idle).say (.returned i r))
    | .waiting p =>
      match s.promises[p]? with
      | some (some r) => some ((s.setPC i th .idle).say (.returned i r))
      | _ => none

/-- A schedule: the threads in the order of their steps. Threads that cannot step are skipped. -/
def runSchedule (srv : Nat → Answer) : List Nat → FState → FState
  | [], s => s
  | i :: is, s => runSchedule srv is ((s.step srv i).getD s)

end FState

/-- The states that some interleaving leads to. -/
inductive FReach (srv : Nat → Answer) (s0 : FState) : FState → Prop where
  | start : FReach srv s0 s0
  | next {s s'} (i : Nat) : FReach srv s0 s → s.step srv i = some s' → FReach srv s0 s'

end Http
end Pkm
