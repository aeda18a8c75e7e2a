import Verif.Dict
import Verif.Text
/-
Model of the store of publishing credentials, pkm-cli/src/pkm_cli/auth/publish_auth_store.py ("as"), and of the
`pkm publish` command that uses it: pkm-cli/src/pkm_cli/main2.py ("m2") and
pkm-cli/src/pkm_cli/controllers/prj_controller.py ("pc").

Simplifications:
* The cipher is ideal: what is sealed with a password is opened by that password only, and nothing else opens. Writing
  and reading the toml text gives back the dictionary (C33-C36 are about this).
* The answers of the user are a list; running out of it is the user breaking off.
* Publishing itself either succeeds or fails, depending on the credentials.
-/
namespace Pkm.Auth

inductive AErr where
  /-- `IOError("Wrong password provided")` -/
  | wrongPassword
  /-- `AttributeError` or `TypeError`: the configuration is `None` -/
  | noConfiguration
  | key
  | noAnswer
  /-- the repository refuses -/
  | refused
  deriving DecidableEq, Repr

abbrev Args := Dict Text Text
abbrev Conf := Dict Text Args

/-- The contents of the file of the store. -/
inductive Blob where
  | sealed (password : Text) (conf : Conf)
  | junk
  deriving DecidableEq

/-- `PublishAuthenticationStore` (as 28-33). -/
structure Store where
  cipher : Option Text := none
  conf : Option Conf := none
  deriving DecidableEq

/-- The file and the answers that the user is going to give. -/
structure World where
  file : Option Blob
  answers : List Text
  deriving DecidableEq

/-- `_cipher.decrypt(..)` and the test for the magic text (as 53-59). -/
def openBlob (p : Text) : Blob → Option Conf
  | .sealed q c => if p = q then some c else none
  | .junk => none

/-- The loop of the first use (as 39-47). -/
def firstPassword : List Text → Option (Text × List Text)
  | a :: b :: rest => if a = b then some (a, rest) else firstPassword rest
  | _ => none

/-- `if not password` (as 38, 51). -/
def given : Option Text → Option Text
  | some (c :: cs) => some (c :: cs)
  | _ => none

/-- The password for an existing file (as 51-52). -/
def oldPassword (pw : Option Text) (answers : List Text) : Option (Text × List Text) :=
  match given pw with
  | some p => some (p, answers)
  | none => match answers with
    | a :: rest => some (a, rest)
    | [] => none

/-- The password of a new file (as 38-47). -/
def newPassword (pw : Option Text) (answers : List Text) : Option (Text × List Text) :=
  match given pw with
  | some p => some (p, answers)
  | none => firstPassword answers

/-- `unlock` (as 35-62): the new store and world, and the exception. -/
def unlock (s : Store) (w : World) (pw : Option Text) : Store × World × Option AErr :=
  match w.file with
  | none => match newPassword pw w.answers with
    | some (p, rest) => (⟨some p, some []⟩, { w with answers := rest }, none)
    | none => (s, { w with answers := [] }, some .noAnswer)
  | some blob => match oldPassword pw w.answers with
    | some (p, rest) => match openBlob p blob with
      | some c => (⟨some p, some c⟩, { w with answers := rest }, none)
      | none => ({ s with cipher := some p }, { w with answers := rest }, some .wrongPassword)
    | none => (s, { w with answers := [] }, some .noAnswer)

/-- `_ensure_unlocked` (as 67-69). -/
def ensure (s : Store) (w : World) : Store × World × Option AErr :=
  if s.cipher.isSome then (s, w, none) else unlock s w none

/-- `auth_args_for` (as 74-76). -/
def authArgsFor (s : Store) (w : World) (name : Text) : Store × World × Except AErr (Option Args) :=
  match ensure s w with
  | (s, w, some e) => (s, w, .error e)
  | (s, w, none) => match s.conf with
    | some c => (s, w, .ok (Dict.get c name))
    | none => (s, w, .error .noConfiguration)

/-- `_save` (as 78-82) with the cipher `p`. -/
def save (w : World) (p : Text) (c : Conf) : World := { w with file := some (.sealed p c) }

/-- `add_auth_args` (as 84-87). -/
def addAuthArgs (s : Store) (w : World) (name : Text) (args : Args) : Store × World × Option AErr :=
  match ensure s w with
  | (s, w, some e) => (s, w, some e)
  | (s, w, none) => match s.cipher, s.conf with
    | some p, some c => ({ s with conf := some (Dict.put c name args) }, save w p (Dict.put c name args), none)
    | _, _ => (s, w, some .noConfiguration)

/-- `rm_auth_args` (as 89-92). -/
def rmAuthArgs (s : Store) (w : World) (name : Text) : Store × World × Option AErr :=
  match ensure s w with
  | (s, w, some e) => (s, w, some e)
  | (s, w, none) => match s.cipher, s.conf with
    | some p, some c =>
      if (Dict.get c name).isSome then ({ s with conf := some (Dict.del c name) }, save w p (Dict.del c name), none)
      else (s, w, some .key)
    | _, _ => (s, w, some .noConfiguration)

/-- What a crash during `write_bytes` (as 82) can leave in the file: the file as it was, a truncated file, the new
file. -/
def crashesOf (before after : World) : List World := [before, { before with file := some .junk }, after]

/-! ### publishing -/

/-- The loop over the parameters of the publisher (pc 97-106). The result: the credentials, the parameters the user was
asked for and the answers left. -/
def requestParams (given : Args) : Args → List Text → List Text → Option (Args × List Text × List Text)
  | acc, [], answers => some (acc, [], answers)
  | acc, name :: names, answers => match (Dict.get given name).getD [] with
    | [] => match answers with
      | [] => none
      | a :: answers => match requestParams given (Dict.put acc name a) names answers with
        | none => none
        | some (args, asked, rest) => some (args, name :: asked, rest)
    | v => requestParams given (Dict.put acc name v) names answers

/-- `pkm publish` (m2 326-341 with pc 89-109). `repo`, `extras`, `saveIt`: the command line. The result: the credentials
the repository was given and the parameters the user was asked for. -/
def publish (accepts : Args → Bool) (params : List Text) (repo : Text) (extras : Args) (saveIt : Bool) (w : World) :
    World × Option AErr × Option (Args × List Text) :=
  match requestParams extras [] params w.answers with
  | none => ({ w with answers := [] }, some .noAnswer, none)
  | some (args, asked, rest) =>
    if accepts args then
      if saveIt then
        match addAuthArgs {} { w with answers := rest } repo args with
        | (_, w, e) => (w, e, some (args, asked))
      else ({ w with answers := rest }, none, some (args, asked))
    else ({ w with answers := rest }, some .refused, some (args, asked))

end Pkm.Auth
