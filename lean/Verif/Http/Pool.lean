import Verif.Text
/-
Model of the cached connections of the http client: pkm/src/pkm/utils/http/http_client.py 97-182 ("hc"), of the loop that uses them
(hc 325-358) and of the state of a connection in http.client of the standard library ("st").

Simplifications: one host (each host has its own `_Connections`); servers keep connections alive; a response whose body was not read
to its end leaves data on the socket (unless they were already buffered); redirections are left out (C57).
-/
namespace Pkm.Http.Pool

/-- `HTTPConnection` (st): `busy` is any state but `_CS_IDLE`, `unread` means that data of an earlier response are left on the
socket, `closed` that it was closed for good. -/
structure Conn where
  id : Nat
  busy : Bool := false
  unread : Bool := false
  closed : Bool := false
deriving DecidableEq, Repr

/-- What happens on the wire when a request is sent: the connection breaks while it is written, the connection turns out to have
been closed by the server when the response is awaited, or the server answers. -/
inductive Wire where
  | breaks
  | dropped
  | answers
deriving DecidableEq, Repr

/-- What the caller gets: the answer to the own request, `CannotSendRequest`, `BadStatusLine` (or an answer made of the data of another
response), or a `ConnectionError`. -/
inductive Reply where
  | own
  | cannotSend
  | garbled
  | lost
deriving DecidableEq, Repr

/-- `conn.request(..); conn.getresponse()` (hc 335-336; st `putrequest`, `send`, `getresponse`). A connection that is not idle refuses
the request; if sending fails it stays busy; if the server hung up it is closed and will open a new socket; what cannot be
understood leaves it busy. -/
def request (c : Conn) (w : Wire) : Conn × Reply :=
  if c.busy then (c, .cannotSend)
  else match w with
    | .breaks => ({ c with busy := true }, .lost)
    | .dropped => ({ c with unread := false }, .lost)
    | .answers => if c.unread then ({ c with busy := true }, .garbled) else (c, .own)

/-- The whole use of a connection by one turn of the loop (hc 333-355): if there is an answer, its body is read to the end by the
caller, or not, and the response is closed. -/
def useConn (c : Conn) (w : Wire) (all : Bool) : Conn × Reply :=
  match request c w with
  | (c', .own) => ({ c' with unread := !all }, .own)
  | r => r

/-- `_Connections` (hc 118-126) and the connections that are in use, with their users. -/
structure State where
  idle : List Conn := []
  inUse : List (Nat × Conn) := []
  fresh : Nat := 0
  cap : Nat := 24
  closed : Bool := false
  /-- The connections that were closed for good. -/
  gone : List Conn := []
deriving DecidableEq, Repr

/-- `acquire` (hc 128-139), under the lock: the connection put back last, or a new one. `connection_for` refuses after `close`
(hc 169-170). -/
def acquire (s : State) (user : Nat) : Option (State × Conn) :=
  if s.closed then none
  else match s.idle.getLast? with
    | some c => some ({ s with idle := s.idle.dropLast, inUse := (user, c) :: s.inUse }, c)
    | none => some ({ s with fresh := s.fresh + 1, inUse := (user, { id := s.fresh }) :: s.inUse }, { id := s.fresh })

/-- `_ConnectionProxy.close` and `_release` (hc 111-115, 141-148), under the lock. -/
def putBack (s : State) (c : Conn) : State :=
  if s.idle.any (fun d => d.id == c.id) then s
  else if !s.closed && s.idle.length < s.cap then { s with idle := s.idle ++ [c] }
  else { s with gone := { c with closed := true } :: s.gone }

/-- `close` (hc 150-155, 177-182). -/
def close (s : State) : State :=
  { s with closed := true, idle := [], gone := s.idle.map (fun c => { c with closed := true }) ++ s.gone }

/-- Steps of users: a user (one turn of the loop in `_request`) takes a connection; it uses the connection, which concerns nobody
else, and puts it back; somebody closes the pool. -/
inductive Step where
  | take (user : Nat)
  | use (user : Nat) (w : Wire) (all : Bool)
  | shut
deriving DecidableEq, Repr

/-- One step and the reply it gives. A user has one connection at a time (the `with` of hc 332). -/
def step (s : State) : Step → State × Option Reply
  | .take u => if s.inUse.any (fun p => p.1 == u) then (s, none)
    else match acquire s u with
      | none => (s, none)
      | some (s', _) => (s', none)
  | .use u w all => match s.inUse.find? (fun p => p.1 == u) with
    | none => (s, none)
    | some p => (putBack { s with inUse := s.inUse.filter (fun q => q.1 != u) } (useConn p.2 w all).1,
        some (useConn p.2 w all).2)
  | .shut => (close s, none)

/-- A run: any interleaving of the steps of any users. -/
def run (s : State) : List Step → State × List Reply
  | [] => (s, [])
  | e :: es => ((run (step s e).1 es).1, (step s e).2.toList ++ (run (step s e).1 es).2)

/-- One user's turns of the loop (hc 331-355) with what happens on the wire in each turn: a `ConnectionError` counts as a try, other
exceptions end the loop, and so do `tries` failures (`max_connection_retries`). `none`: the loop ended without a reply of its own
(`HttpException`). -/
def attempts : Nat → State → Nat → List Wire → State × Option Reply
  | 0, s, _, _ => (s, none)
  | _ + 1, s, _, [] => (s, none)
  | n + 1, s, u, w :: ws =>
    match (run s [.take u, .use u w true]).2 with
    | [.lost] => attempts n (run s [.take u, .use u w true]).1 u ws
    | [x] => ((run s [.take u, .use u w true]).1, some x)
    | _ => ((run s [.take u, .use u w true]).1, none)

end Pkm.Http.Pool
