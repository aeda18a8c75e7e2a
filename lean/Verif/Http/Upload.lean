import Verif.Dict
import Verif.Dist.Metadata
/-
Model of uploads: pkm/src/pkm/utils/http/mfd_payload.py ("mf"), pkm/src/pkm/utils/io_streams.py 21-39 ("io") and the publisher of
pkm/src/pkm/repositories/pypi_repository.py 137-197 ("pr").

Simplifications: bytes are characters (texts are not encoded); the content type guessed from a file name is given with the field; the
boundary, random in the code (mf 41), is a parameter.
-/
namespace Pkm
namespace Upload

/-- `\r\n`. -/
def crlf : Text := ['\r', '\n']

/-- `chunks(stream, n)` (io 31-39) of a stream at `s`: read `i` gives at most `n` and at most `avail i` bytes. Without bytes the loop
ends. The first argument bounds the number of reads. -/
def chunksFrom (n : Nat) (avail : Nat → Nat) : Nat → Nat → Text → List Text
  | 0, _, _ => []
  | fuel + 1, i, s =>
    if min n (avail i) = 0 ∨ s = [] then []
    else s.take (min n (avail i)) :: chunksFrom n avail fuel (i + 1) (s.drop (min n (avail i)))

/-- All chunks. -/
def chunks (n : Nat) (avail : Nat → Nat) (s : Text) : List Text := chunksFrom n avail s.length 0 s

/-- The payloads of fields (mf 14): a text or bytes, an open file with what is left to be read, or something else. -/
inductive Payload where
  | text (s : Text)
  | file (rest : Text)
  | other
deriving DecidableEq

/-- `FormField` (mf 14-26), with its content type. -/
structure Field where
  name : Text
  filename : Option Text := none
  contentType : Text := t!"application/octet-stream"
  payload : Payload
deriving DecidableEq

/-- `; filename="..."` (mf 18). -/
def filenamePart : Option Text → Text
  | none => []
  | some f => if f = [] then [] else t!"; filename=\"" ++ f ++ ['"']

/-- The header (mf 20). -/
def disposition (f : Field) : Text := t!"form-data; name=\"" ++ f.name ++ '"' :: filenamePart f.filename

/-- `render` (mf 29-33). -/
def render (f : Field) : Text :=
  t!"Content-Disposition: " ++ disposition f ++ crlf ++ (t!"Content-Type: " ++ f.contentType ++ crlf) ++ crlf

/-- How streams are read: the size of chunks (mf 37) and what is available. -/
structure Reading where
  size : Nat := 8192
  avail : Nat → Nat := fun _ => 8192

/-- The payload of a field (mf 53-60) and the payload as it is afterwards: a file is at its end. `none`: `ValueError`. -/
def payloadChunks (r : Reading) : Payload → Option (List Text × Payload)
  | .text s => some ([s], .text s)
  | .file s => some (chunks r.size r.avail s, .file [])
  | .other => none

/-- `__iter__` (mf 45-62): what is sent, the fields as they are afterwards, and whether there was an exception. -/
def iterate (r : Reading) (b : Text) : List Field → List Text × List Field × Bool
  | [] => ([], [], true)
  | f :: fs => match payloadChunks r f.payload with
    | none => ([['-', '-'] ++ b ++ crlf, render f], f :: fs, false)
    | some (cs, p) =>
      let rest := iterate r b fs
      ([['-', '-'] ++ b ++ crlf, render f] ++ cs ++ [crlf] ++ rest.1, { f with payload := p } :: rest.2.1, rest.2.2)

/-- The body of the request: http.client sends the chunks in order. -/
def body (r : Reading) (b : Text) (fs : List Field) : Text := (iterate r b fs).1.flatten

/-- The bodies of the tries of `_request` (http_client.py 331-355), which iterates over the same payload again. -/
def bodies (r : Reading) (b : Text) : Nat → List Field → List Text
  | 0, _ => []
  | n + 1, fs => body r b fs :: bodies r b n (iterate r b fs).2.1

/-! ### Publishing -/

/-- A hash (hashlib): it may be fed in pieces. -/
structure Hash where
  σ : Type
  init : σ
  update : σ → Text → σ
  hex : σ → Text
  nil : ∀ s, update s [] = s
  append : ∀ s a b, update s (a ++ b) = update (update s a) b

/-- The digest of a text. -/
def Hash.of (h : Hash) (t : Text) : Text := h.hex (h.update h.init t)

/-- The digest of chunks (pr 158-163). -/
def Hash.ofChunks (h : Hash) (cs : List Text) : Text := h.hex (cs.foldl h.update h.init)

/-- `k.replace('-', '_').lower()` (pr 154). -/
def fieldKey (k : Text) : Text := lower (k.map (fun c => if c = '-' then '_' else c))

/-- `distribution.suffix == '.whl'` (pr 155). -/
def isWheel (file : Text) : Bool := t!".whl".isSuffixOf file && decide (file.length > 4)

/-- `distribution.name.split("-")[2]` (pr 156); `none`: `IndexError`. -/
def pyVersion (file : Text) : Option Text := if isWheel file then (splitOn '-' file)[2]? else some t!"source"

/-- The fields added by `publish` (pr 165-173). -/
def ownFields (file : Text) (py : Text) (md5 sha blake : Hash) (cs : List Text) : List (Text × Meta.Val) :=
  [(t!"filetype", .text (if isWheel file then t!"bdist_wheel" else t!"sdist")), (t!"pyversion", .text py),
   (t!"md5_digest", .text (md5.ofChunks cs)), (t!"sha256_digest", .text (sha.ofChunks cs)),
   (t!"blake2_256_digest", .text (blake.ofChunks cs)), (t!":action", .text t!"file_upload"), (t!"protocol_version", .text t!"1")]

/-- The fields of one entry (pr 176-181). -/
def entryFields (e : Text × Meta.Val) : List Field :=
  match e.2 with
  | .nothing => [{ name := e.1, payload := .other }]
  | .text s => [{ name := e.1, payload := .text s }]
  | .list l => l.map (fun s => { name := e.1, payload := .text s })

/-- The data of the form (pr 154, 165-173). -/
def formData (meta_ : Meta.Data) (own : List (Text × Meta.Val)) : Meta.Data :=
  own.foldl (fun d e => d.put e.1 e.2) (meta_.foldl (fun d e => d.put (fieldKey e.1) e.2) [])

/-- `publish` (pr 151-187) up to the request: the fields, or `none` for an `IndexError`. `file` and `content` are name and content of
the distribution; `r` is how it is read for the digests. -/
def publishFields (md5 sha blake : Hash) (r : Reading) (meta_ : Meta.Data) (file content : Text) : Option (List Field) :=
  (pyVersion file).map fun py =>
    (formData meta_ (ownFields file py md5 sha blake (chunks r.size r.avail content))).flatMap entryFields ++
      [{ name := t!"content", filename := some file, payload := .file content }]

end Upload
end Pkm
