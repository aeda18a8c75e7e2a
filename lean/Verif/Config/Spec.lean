import Verif.Config.Model
/-
Vocabulary of the statements about configuration classes.
-/
namespace Pkm
namespace Config

/-- Neither key is the other one or goes through it: `a.b` and `a.c`, but not `a` and `a.b`. -/
def Unrelated (k k' : List Text) : Prop := ¬ k <+: k' ∧ ¬ k' <+: k

/-- The attributes of a class. -/
def Fields.names {V : Type} : Fields V → List Text
  | .nil => []
  | .cons f _ rest => f.name :: rest.names

/-- The keys of the fields that have one. -/
def Fields.keys {V : Type} : Fields V → List (List Text)
  | .nil => []
  | .cons f _ rest => if f.leftover then rest.keys else f.key :: rest.keys

/-- The number of fields that take what is left. -/
def Fields.leftovers {V : Type} : Fields V → Nat
  | .nil => 0
  | .cons f _ rest => (if f.leftover then 1 else 0) + rest.leftovers

/-- What the fields that take what is left hold. -/
def Fields.rest {V : Type} : Fields V → List (Text × Val V) → Table
  | .nil, _ => []
  | .cons f _ fs, vals =>
    if f.leftover then (match attr vals f.name with | .raw (.table l) => l | _ => []) ++ fs.rest vals
    else fs.rest vals

/-- The keys of a class name different places: either no field takes what is left and no key goes through another one,
or no key has a dot, no two keys are equal, and what is left has other keys. -/
def PlacesApart {V : Type} (fs : Fields V) (vals : List (Text × Val V)) : Prop :=
  (fs.leftovers = 0 ∧ (∀ k ∈ fs.keys, k ≠ []) ∧ fs.keys.Pairwise Unrelated) ∨
  (fs.leftovers ≤ 1 ∧ ∃ ks : List Text, fs.keys = ks.map (fun k => [k]) ∧
    (ks ++ (fs.rest vals).map (·.1)).Nodup)

mutual
/-- The values that belong to a type: a value whose codec reads what it writes for it, lists and dictionaries of such
values, objects whose attributes hold such values. `None` belongs to an attribute that is not required and has no
default. The `__post_init__` of a class leaves the object as it is. -/
def HasTy {V : Type} : Ty V → Val V → Prop
  | .leaf c, v => v ≠ .none ∧ ∃ r, c.unparse v = .ok r ∧ r ≠ .null ∧ c.parse r = .ok v
  | .list t, v => ∃ l, v = .list l ∧ ∀ x ∈ l, HasTy t x
  | .dict t, v => ∃ d, v = .dict d ∧ ∀ p ∈ d, HasTy t p.2
  | .complex post fs, v => ∃ vals, v = .obj vals ∧ vals.map (·.1) = fs.names ∧ fs.names.Nodup ∧
      PlacesApart fs vals ∧ post vals = .ok vals ∧ FieldsOk fs vals
  | .unknown, _ => False
/-- The values that belong to the attributes of a class. -/
def FieldsOk {V : Type} : Fields V → List (Text × Val V) → Prop
  | .nil, _ => True
  | .cons f t rest, vals =>
    (f.leftover = true → ∃ l, attr vals f.name = .raw (.table l)) ∧
    (f.leftover = false → (attr vals f.name = .none ∧ f.required = false ∧ f.default = .none) ∨
      HasTy t (attr vals f.name)) ∧
    FieldsOk rest vals
end

/-- What is found at a path. -/
def look : List Text → Raw → Option Raw
  | [], r => some r
  | k :: ks, .table t =>
    match Dict.get t k with
    | some r => look ks r
    | none => none
  | _ :: _, _ => none

/-- A table holds nothing but what lies at, below or on the way to the given keys. -/
def Only (K : List (List Text)) (t : Table) : Prop :=
  ∀ p, p ≠ [] → ∀ r, look p (.table t) = some r →
    (∃ k ∈ K, k <+: p) ∨ ((∃ s, r = .table s) ∧ ∃ k ∈ K, p <+: k)

/-- The values of the attributes are found in a table at their keys, as their codecs write them, and are read back from
there; nothing is found at the key of an attribute without value. -/
def Stored {V : Type} : Fields V → List (Text × Val V) → Table → Prop
  | .nil, _, _ => True
  | .cons f t rest, vals, d =>
    ((attr vals f.name = .none ∧ f.required = false ∧ f.default = .none ∧ look f.key (.table d) = none) ∨
      (∃ r, look f.key (.table d) = some r ∧ unparse t (attr vals f.name) = .ok r ∧ r ≠ .null ∧
        parse t r = .ok (attr vals f.name))) ∧
    Stored rest vals d

/-- The attributes that take what is left. -/
def Fields.leftoverNames {V : Type} : Fields V → List Text
  | .nil => []
  | .cons f _ rest => if f.leftover then f.name :: rest.leftoverNames else rest.leftoverNames

end Config
end Pkm
