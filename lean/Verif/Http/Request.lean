import Verif.Http.Url
/-
Model of `HttpClient._request` (pkm/src/pkm/utils/http/http_client.py 318-358, "http" below) with any behaviour of
the server and of the code in the body of the `with` statement that uses the response.

Not modelled: connections and their reuse (see Connections.lean), headers, the payload, gzip.
-/
namespace Pkm
namespace Http

/-- What a connection attempt leads to. -/
inductive Reply where
  /-- a `ConnectionError` of connecting, sending or reading the status -/
  | connError
  /-- any other exception (for instance a timeout) -/
  | otherError
  /-- a status of 301, 302, 303, 307, 308 with its `Location` header -/
  | redirect (location : Option Text)
  /-- any other status -/
  | answer (status : Nat)
  deriving DecidableEq, Repr

/-- How the body of the `with` statement ends for a response. -/
inductive Body where
  | ok
  | connError
  | otherError
  deriving DecidableEq, Repr

inductive HttpErr where
  /-- `HttpException("connection failed")` -/
  | connectionFailed
  /-- `HttpException("max redirects reached")` -/
  | maxRedirects
  /-- redirect without a location -/
  | noLocation
  /-- the exception of `Url.parse` for a location -/
  | badLocation
  /-- another exception of the connection or of the body -/
  | other
  /-- `RuntimeError("generator didn't stop after throw()")` of `contextmanager`: the generator yields again -/
  | yieldedTwice
  deriving DecidableEq, Repr

/-- How the `with` statement ends. -/
inductive Ending where
  /-- normally; the response was that of attempt `k` -/
  | done (k : Nat) (status : Nat)
  | raised (e : HttpErr)
  /-- the loop is not finished within the fuel -/
  | unfinished
  deriving DecidableEq, Repr

/-- The ending and, for every request sent, its URL and the reply. -/
structure Result where
  ending : Ending
  sent : List (Url × Reply)
  deriving DecidableEq, Repr

/-- The parameters: `self._max_redirects`, the limit in force, `self._max_connection_retries`. -/
structure Limits where
  selfRedirects : Nat
  redirects : Nat
  retries : Nat
  deriving DecidableEq, Repr

/-- `max_redirects = self._max_redirects if max_redirects < 0 else max_redirects` (http 329). -/
def limits (selfRedirects retries : Nat) (arg : Int) : Limits :=
  ⟨selfRedirects, if arg < 0 then selfRedirects else arg.toNat, retries⟩

def Result.after (u : Url) (r : Reply) (rest : Result) : Result := { rest with sent := (u, r) :: rest.sent }

/-- The loop (http 331-358). `k` counts the attempts, `thrown`: an exception of the body was thrown into the
generator already. -/
def requestLoop (lim : Limits) (srv : Nat → Reply) (body : Nat → Body) :
    Nat → Nat → Url → Nat → Nat → Bool → Result
  | 0, _, _, _, _, _ => ⟨.unfinished, []⟩
  | fuel + 1, k, url, redirs, retries, thrown =>
    if retries < lim.retries ∧ redirs ≤ lim.redirects then
      match srv k with
      | .connError => (requestLoop lim srv body fuel (k + 1) url redirs (retries + 1) thrown).after url .connError
      | .otherError => ⟨.raised .other, [(url, .otherError)]⟩
      | .redirect none => ⟨.raised .noLocation, [(url, .redirect none)]⟩
      | .redirect (some loc) =>
        if loc.isEmpty then ⟨.raised .noLocation, [(url, .redirect (some loc))]⟩
        else
          match Http.redirect url loc with
          | none => ⟨.raised .badLocation, [(url, .redirect (some loc))]⟩
          | some url' => (requestLoop lim srv body fuel (k + 1) url' (redirs + 1) 0 thrown).after url (.redirect (some loc))
      | .answer st =>
        if thrown then ⟨.raised .yieldedTwice, [(url, .answer st)]⟩
        else
          match body k with
          | .ok => ⟨.done k st, [(url, .answer st)]⟩
          | .otherError => ⟨.raised .other, [(url, .answer st)]⟩
          | .connError => (requestLoop lim srv body fuel (k + 1) url redirs (retries + 1) true).after url (.answer st)
    else ⟨.raised (if lim.selfRedirects < redirs then .maxRedirects else .connectionFailed), []⟩

/-- `with self._request(..) as response: body` (http 319-358). The fuel is never used up, see
`request_bounded`. -/
def request (lim : Limits) (srv : Nat → Reply) (body : Nat → Body) (url : Url) : Result :=
  requestLoop lim srv body ((lim.redirects + 1) * lim.retries + 1) 0 url 0 0 false

end Http
end Pkm
