import Verif.Dict
import Verif.Text
/-
Model of the configuration classes, pkm/src/pkm/config/configclass.py ("cc" below): reading an object of a
configuration class from the raw data of a file (`ConfigCodec.parse`) and turning it back (`ConfigCodec.unparse`).

Simplifications: a configuration class is given by its schema (`Ty.complex`), the value of a field of such a class is
an object of that class and not of a subclass; exceptions are values naming their cause only; keys of `Dict[..]`
fields are strings; the `codec` argument of a field takes the place of its type.
-/
namespace Pkm
namespace Config

/-- Raw data as the readers of files give it (cc 17: `Dict[str, Any]`). -/
inductive Raw where
  | null
  | str (s : Text)
  | int (n : Int)
  | bool (b : Bool)
  | list (l : List Raw)
  | table (t : List (Text × Raw))
  deriving Repr

/-- A raw table. -/
abbrev Table := List (Text × Raw)

/-- `not v` of Python (cc 254, 264). -/
def Raw.falsy : Raw → Bool
  | .null => true
  | .str s => s.isEmpty
  | .int n => n == 0
  | .bool b => !b
  | .list l => l.isEmpty
  | .table t => t.isEmpty

/-- Values of fields: `None`, raw data, a value of another class (versions, dependencies, ...), a list, a dictionary
and an object of a configuration class, as the values of its attributes. -/
inductive Val (V : Type) where
  | none
  | raw (r : Raw)
  | ext (v : V)
  | list (l : List (Val V))
  | dict (d : List (Text × Val V))
  | obj (fields : List (Text × Val V))

/-- The exceptions. -/
inductive Err where
  | missing (field : Text)
  | noCodec (field : Text)
  | badValue
  | assertion
  deriving Repr, DecidableEq

/-- A codec without parts (cc 84-105, 194-203). -/
structure Codec (V : Type) where
  parse : Raw → Except Err (Val V)
  unparse : Val V → Except Err Raw

/-- What a schema says about a field besides its type (cc 369-376): the attribute, the parts of the key (cc 252), and
the default value, or what the default factory makes. -/
structure Field (V : Type) where
  name : Text
  key : List Text
  required : Bool := false
  default : Val V := .none
  leftover : Bool := false

mutual
/-- Types of fields, by the codec that `field_codec_for_or_none` (cc 286-300) finds for them. `complex` is a
configuration class with its `__post_init__`. -/
inductive Ty (V : Type) where
  | leaf (c : Codec V)
  | list (t : Ty V)
  | dict (t : Ty V)
  | complex (post : List (Text × Val V) → Except Err (List (Text × Val V))) (fs : Fields V)
  | unknown
/-- The schema of a configuration class: its fields in order (cc 396-419). -/
inductive Fields (V : Type) where
  | nil
  | cons (f : Field V) (t : Ty V) (rest : Fields V)
end

/-! ### Keys -/

/-- `_pop_key` (cc 251-258): the value at a dotted key is taken out, `null` when there is none. The tables on the way
stay, even when they become empty. -/
def popKey : Table → List Text → Except Err (Raw × Table)
  | t, [] => .ok (.null, t)
  | t, [k] => .ok ((Dict.get t k).getD .null, Dict.del t k)
  | t, k :: k' :: ks =>
    match Dict.get t k with
    | none => .ok (.null, t)
    | some r =>
      if r.falsy then .ok (.null, t) else
      match r with
      | .table t' =>
        match popKey t' (k' :: ks) with
        | .ok (v, t'') => .ok (v, Dict.put t k (.table t''))
        | .error e => .error e
      | _ => .error .assertion

/-- The table that `_shove_key` continues with (cc 263-267): an absent or false entry is taken as a new table. -/
def nextTable : Option Raw → Option Table
  | none => some []
  | some (.table t) => some t
  | some r => if r.falsy then some [] else none

/-- `_shove_key` (cc 261-269). An entry on the way that is neither false nor a table has no `get`, or no item
assignment. -/
def shoveKey : Table → List Text → Raw → Except Err Table
  | t, [], _ => .ok t
  | t, [k], v => .ok (Dict.put t k v)
  | t, k :: k' :: ks, v =>
    match nextTable (Dict.get t k) with
    | some t' =>
      match shoveKey t' (k' :: ks) v with
      | .ok t'' => .ok (Dict.put t k (.table t''))
      | .error e => .error e
    | none => .error .badValue

/-- `target_config.update(value)` (cc 349). -/
def update : Table → Table → Table
  | t, [] => t
  | t, (k, v) :: l => update (Dict.put t k v) l

/-! ### Reading -/

/-- The values that `for it in v` goes over (cc 130): the items of a list, the characters of a string, the keys of a
table. -/
def Raw.items : Raw → Except Err (List Raw)
  | .list l => .ok l
  | .str s => .ok (s.map fun c => .str [c])
  | .table t => .ok (t.map fun p => .str p.1)
  | _ => .error .badValue

/-- A function over the values of a table, in order (cc 149, 157). -/
def mapValues {A B : Type} (f : A → Except Err B) : List (Text × A) → Except Err (List (Text × B))
  | [] => .ok []
  | (k, a) :: l =>
    match f a with
    | .error e => .error e
    | .ok b =>
      match mapValues f l with
      | .error e => .error e
      | .ok bs => .ok ((k, b) :: bs)

/-- A function over the items of a list, in order (cc 130, 135). -/
def mapItems {A B : Type} (f : A → Except Err B) : List A → Except Err (List B)
  | [] => .ok []
  | a :: l =>
    match f a with
    | .error e => .error e
    | .ok b =>
      match mapItems f l with
      | .error e => .error e
      | .ok bs => .ok (b :: bs)

/-- Adds the value of a field to those of the fields after it. -/
def consField {V : Type} (name : Text) (v : Val V) :
    Except Err (List (Text × Val V) × Table) → Except Err (List (Text × Val V) × Table)
  | .ok (vs, t) => .ok ((name, v) :: vs, t)
  | .error e => .error e

/-- The field that is given the table itself (cc 309-310): it sees the table as all pops leave it. -/
def consLeftover {V : Type} (name : Text) :
    Except Err (List (Text × Val V) × Table) → Except Err (List (Text × Val V) × Table)
  | .ok (vs, t) => .ok ((name, .raw (.table t)) :: vs, t)
  | .error e => .error e

/-- The exception of a field whose type has no codec, `ValueError` for one whose codec fails (cc 323-332). -/
def fieldErr {V A : Type} (f : Field V) (t : Ty V) : Except Err A → Except Err A
  | .ok a => .ok a
  | .error _ =>
    match t with
    | .unknown => .error (.noCodec f.name)
    | _ => .error .badValue

/-- The value of a field that is not there (cc 315-321). -/
def absent {V : Type} (f : Field V) : Except Err (Val V) :=
  if f.required then .error (.missing f.name) else .ok f.default

/-- Wraps what is read of a class into the object. -/
def wrapObj {V : Type} (post : List (Text × Val V) → Except Err (List (Text × Val V))) :
    Except Err (List (Text × Val V) × Table) → Except Err (Val V)
  | .ok (vs, _) =>
    match post vs with
    | .ok vs' => .ok (.obj vs')
    | .error e => .error e
  | .error e => .error e

mutual
/-- The `parse` of a codec (cc 97-98, 107-111, 125-130, 138-149, 161-164, 173-176, 185-188). -/
def parse {V : Type} : Ty V → Raw → Except Err (Val V)
  | .leaf c, r => c.parse r
  | .list t, r =>
    match r.items with
    | .ok l =>
      match mapItems (parse t) l with
      | .ok vs => .ok (.list vs)
      | .error e => .error e
    | .error e => .error e
  | .dict t, r =>
    match r with
    | .table d =>
      match mapValues (parse t) d with
      | .ok vs => .ok (.dict vs)
      | .error e => .error e
    | _ => .error .assertion
  | .complex post fs, r =>
    match r with
    | .table d => wrapObj post (parseFields fs d)
    | _ => .error .badValue
  | .unknown, _ => .error .badValue
/-- The loop of `ConfigCodec.parse` (cc 307-334): the values of the fields and what is left of the table. -/
def parseFields {V : Type} : Fields V → Table → Except Err (List (Text × Val V) × Table)
  | .nil, d => .ok ([], d)
  | .cons f t rest, d =>
    if f.leftover then consLeftover f.name (parseFields rest d) else
    match popKey d f.key with
    | .error e => .error e
    | .ok (.null, d') =>
      match absent f with
      | .ok v => consField f.name v (parseFields rest d')
      | .error e => .error e
    | .ok (r, d') =>
      match fieldErr f t (parse t r) with
      | .ok v => consField f.name v (parseFields rest d')
      | .error e => .error e
end

/-! ### Writing -/

/-- `getattr(config_object, field, None)` (cc 346). -/
def attr {V : Type} (vals : List (Text × Val V)) (name : Text) : Val V := (Dict.get vals name).getD .none

mutual
/-- The `unparse` of a codec (cc 100-101, 113-117, 132-135, 151-158, 166-167, 178-179, 190-191). -/
def unparse {V : Type} : Ty V → Val V → Except Err Raw
  | .leaf c, v => c.unparse v
  | .list t, v =>
    match v with
    | .list l =>
      match mapItems (unparse t) l with
      | .ok rs => .ok (.list rs)
      | .error e => .error e
    | _ => .error .badValue
  | .dict t, v =>
    match v with
    | .dict d =>
      match mapValues (unparse t) d with
      | .ok rs => .ok (.table rs)
      | .error e => .error e
    | _ => .error .assertion
  | .complex _ fs, v =>
    match v with
    | .obj vals =>
      match unparseFields fs vals [] with
      | .ok t => .ok (.table t)
      | .error e => .error e
    | _ => .error .badValue
  | .unknown, _ => .error .badValue
/-- The loop of `ConfigCodec.unparse` (cc 345-364) over the fields, from a table. -/
def unparseFields {V : Type} : Fields V → List (Text × Val V) → Table → Except Err Table
  | .nil, _, d => .ok d
  | .cons f t rest, vals, d =>
    match attr vals f.name with
    | .none => unparseFields rest vals d
    | v =>
      if f.leftover then
        match v with
        | .raw (.table l) => unparseFields rest vals (update d l)
        | _ => .error .badValue
      else
        match unparse t v with
        | .error _ => .error .badValue
        | .ok r =>
          match shoveKey d f.key r with
          | .ok d' => unparseFields rest vals d'
          | .error e => .error e
end

/-! ### Codecs -/

/-- `_IDFieldCodec` (cc 95-101): the raw value is the value. -/
def idCodec {V : Type} : Codec V where
  parse r := .ok (.raw r)
  unparse
    | .raw r => .ok r
    | _ => .error .badValue

/-- A codec by a reader of text and `str` (`_ParsableFieldCodec`, cc 161-167). -/
def textCodec {V : Type} (read : Text → Option V) (show_ : V → Text) : Codec V where
  parse
    | .str s =>
      match read s with
      | some v => .ok (.ext v)
      | none => .error .badValue
    | _ => .error .badValue
  unparse
    | .ext v => .ok (.str (show_ v))
    | _ => .error .badValue

/-- `StringableFieldCodec` (cc 107-119): the empty text stands for `None`. -/
def stringable {V : Type} (make : Text → Option V) (show_ : V → Text) : Codec V where
  parse
    | .str [] => .ok .none
    | .str (c :: s) =>
      match make (c :: s) with
      | some v => .ok (.ext v)
      | none => .error .badValue
    | _ => .error .badValue
  unparse
    | .none => .ok (.str [])
    | .ext v => .ok (.str (show_ v))
    | _ => .error .badValue

/-- `_EnumFieldCodec` (cc 173-179) with `enum_by_name` (utils/enums.py 10-14): the members by their names. -/
def enumCodec {V : Type} (members : List (Text × V)) (nameOf : V → Text) : Codec V :=
  textCodec (fun s => Dict.get members s) nameOf

/-- `ConfigIO.load` (cc 242-244) of a file holding the given data: an absent file is an empty table. -/
def load {V : Type} (t : Ty V) (file : Option Table) : Except Err (Val V) := parse t (.table (file.getD []))

/-- The data that `ConfigIO.save` (cc 246-248) gives to the writer. -/
def save {V : Type} (t : Ty V) (v : Val V) : Except Err Raw := unparse t v

end Config
end Pkm
