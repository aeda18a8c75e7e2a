import Verif.Text
import Verif.Parser
/-
Model of `Url` and of the redirection rule of pkm/src/pkm/utils/http/http_client.py ("http" below).
-/
namespace Pkm
namespace Http

/-- `Url` (http 54-61). -/
structure Url where
  scheme : Text
  host : Text
  port : Nat
  path : Text
  query : Text
  fragment : Text
  deriving DecidableEq, Repr

def httpScheme : Text := ['h', 't', 't', 'p']
def httpsScheme : Text := ['h', 't', 't', 'p', 's']

namespace Url

/-- `"" if not self.query_string else f"?{self.query_string}"`. -/
def queryText (u : Url) : Text := if u.query.isEmpty then [] else '?' :: u.query

/-- `"" if not self.fragment else f"#{self.fragment}"`. -/
def fragmentText (u : Url) : Text := if u.fragment.isEmpty then [] else '#' :: u.fragment

/-- `default_port` and `port_str` of `__str__` (http 72-73). -/
def portText (u : Url) : Text :=
  if (u.scheme = httpsScheme ∧ u.port = 443) ∨ (u.scheme = httpScheme ∧ u.port = 80) then []
  else ':' :: showNat u.port

/-- `Url.connection_part` (http 63-64). -/
def connectionPart (u : Url) : Text := u.scheme ++ ':' :: '/' :: '/' :: (u.host ++ ':' :: showNat u.port)

/-- `Url.resource_part` (http 66-69). -/
def resourcePart (u : Url) : Text := u.path ++ u.queryText ++ u.fragmentText

/-- `Url.__str__` (http 71-76). -/
def str (u : Url) : Text :=
  u.scheme ++ ':' :: '/' :: '/' :: (u.host ++ u.portText ++ u.path ++ u.queryText ++ u.fragmentText)

end Url

/-- `text.split(c, 1)` as a pair; the second is `none` if there is no `c`. -/
def splitFirst (c : Char) : Text → Text × Option Text
  | [] => ([], none)
  | x :: xs =>
    if x = c then ([], some xs)
    else ((x :: (splitFirst c xs).1), (splitFirst c xs).2)

/-- The characters that end the network location (`_splitnetloc` of urllib.parse). -/
def isNetlocEnd (c : Char) : Bool := c == '/' || c == '?' || c == '#'

/-- `scheme_chars` of urllib.parse. -/
def isSchemeChar (c : Char) : Bool := isAlnum c || c == '+' || c == '-' || c == '.'

/-- What `urlsplit` returns. -/
structure Parts where
  scheme : Text
  netloc : Text
  path : Text
  query : Text
  fragment : Text
  deriving DecidableEq, Repr

/-- The text before the first `?` or `#` and what follows (the end of `urlsplit`). -/
def splitRest (scheme netloc rest : Text) : Parts :=
  let (a, frag) := splitFirst '#' rest
  let (path, query) := splitFirst '?' a
  ⟨scheme, netloc, path, query.getD [], frag.getD []⟩

/-- The network location (the middle of `urlsplit`). -/
def splitNetloc (scheme rest : Text) : Parts :=
  match rest with
  | '/' :: '/' :: r => splitRest scheme (r.takeWhile (fun c => !isNetlocEnd c)) (r.dropWhile (fun c => !isNetlocEnd c))
  | r => splitRest scheme [] r

/-- `urllib.parse.urlsplit` (used at http 86) as documented by its source in Python 3.9 to 3.12; the removal of
control characters, the checks of brackets and of Unicode normalisation in the network location are left
out. -/
def urlsplit (url : Text) : Parts :=
  match splitFirst ':' url with
  | (c :: s, some rest) =>
    if (c :: s).all isSchemeChar then splitNetloc (lower (c :: s)) rest else splitNetloc [] url
  | _ => splitNetloc [] url

/-- `Url.parse` (http 84-94); `none` is the `ValueError` of unpacking the host and port or of `int`. The sign,
blanks and underscores that `int` would accept are left out. -/
def Url.parse (url : Text) : Option Url :=
  let parts := urlsplit url
  match splitOn ':' parts.netloc with
  | [host] =>
    some ⟨parts.scheme, host, if parts.scheme = httpScheme then 80 else 443, parts.path, parts.query, parts.fragment⟩
  | [host, port] =>
    if isNumeric port then some ⟨parts.scheme, host, PS.toNat port, parts.path, parts.query, parts.fragment⟩ else none
  | _ => none

/-- The URL of the next request after a redirection (http 343-346); `none` is the exception of `Url.parse`. -/
def redirect (u : Url) (location : Text) : Option Url :=
  match location with
  | '/' :: _ => some { u with path := location }
  | _ => Url.parse location

end Http
end Pkm
