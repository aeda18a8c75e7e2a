import Verif.Config.Model
import Verif.VersionText.Model
/-
Model of some configuration classes: those of a `pyproject.toml`, pkm/src/pkm/api/projects/pyproject_configuration.py
("pp" below), as far as saving a project's file depends on them, and those of the repositories,
pkm/src/pkm/api/repositories/repositories_configuration.py ("rc" below).

Simplification: of `ProjectConfig` (pp 122-160) only the name, the version, the authors and the field for what is left
are modelled; `BuildSystemConfig` and `PkmApplicationConfig` (pp 22-30, 76-83) are not (`idCodec`).
-/
namespace Pkm
namespace Config

/-- The codec of versions (cc 221: `_ParsableFieldCodec`). -/
def versionCodec (env : UrlEnv) : Codec Ver := textCodec (fun s => some (parseVersion env s)) Ver.show

/-- `specialsre` of `email.utils`, used by pp 50. -/
def special (c : Char) : Bool := c ∈ ['[', ']', '\\', '(', ')', '<', '>', '@', ',', ':', ';', '"', '.']

/-- `escapesre.sub(r'\\\g<0>', name)` (pp 52): a backslash before each quote and backslash. -/
def escapeName : Text → Text
  | [] => []
  | c :: s => if c = '\\' ∨ c = '"' then '\\' :: c :: escapeName s else c :: escapeName s

/-- The name that `ContactInfo.__post_init__` (pp 41-53) leaves, for ASCII names. -/
def quoteName (s : Text) : Text :=
  if s.any special then ['"'] ++ escapeName s ++ ['"'] else escapeName s

/-- `ContactInfo.__post_init__` (pp 41-53): `None` has no `encode`. -/
def contactPost : List (Text × Val Ver) → Except Err (List (Text × Val Ver)) := fun vals =>
  match attr vals ("name".toList) with
  | .raw (.str s) => .ok (Dict.put vals ("name".toList) (.raw (.str (quoteName s))))
  | _ => .error .badValue

/-- `ContactInfo` (pp 35-39). -/
def contactInfo : Ty Ver :=
  .complex contactPost
    (.cons { name := "name".toList, key := ["name".toList] } (.leaf idCodec)
    (.cons { name := "email".toList, key := ["email".toList] } (.leaf idCodec) .nil))

/-- `ProjectConfig` (pp 122-160). -/
def projectConfig (env : UrlEnv) : Ty Ver :=
  .complex .ok
    (.cons { name := "name".toList, key := ["name".toList] } (.leaf idCodec)
    (.cons { name := "version".toList, key := ["version".toList] } (.leaf (versionCodec env))
    (.cons { name := "authors".toList, key := ["authors".toList] } (.list contactInfo)
    (.cons { name := "leftovers".toList, key := ["leftovers".toList], leftover := true } .unknown .nil))))

/-- `PkmProjectConfig` (pp 85-89): `Optional[..]` has no codec (cc 286-300: its origin is `Union`). -/
def pkmProjectConfig : Ty Ver :=
  .complex .ok
    (.cons { name := "packages".toList, key := ["packages".toList] } .unknown
    (.cons { name := "group".toList, key := ["group".toList] } .unknown .nil))

/-- `PkmDistributionConfig` (pp 70-73). -/
def pkmDistributionConfig : Ty Ver :=
  .complex .ok (.cons { name := "type".toList, key := ["type".toList] } (.leaf idCodec) .nil)

/-- `PyProjectConfiguration` (pp 257-265). -/
def pyProject (env : UrlEnv) : Ty Ver :=
  .complex .ok
    (.cons { name := "project".toList, key := ["project".toList] } (projectConfig env)
    (.cons { name := "pkm_project".toList, key := ["tool".toList, "pkm".toList, "project".toList],
             default := .obj [("packages".toList, .none), ("group".toList, .none)] } pkmProjectConfig
    (.cons { name := "build_system".toList, key := ["build-system".toList] } (.leaf idCodec)
    (.cons { name := "pkm_application".toList, key := ["tool".toList, "pkm".toList, "application".toList] }
      (.leaf idCodec)
    (.cons { name := "pkm_distribution".toList, key := ["tool".toList, "pkm".toList, "distribution".toList],
             default := .obj [("type".toList, .raw (.str "lib".toList))] } pkmDistributionConfig
    (.cons { name := "_leftovers".toList, key := ["_leftovers".toList], leftover := true } .unknown .nil))))))

/-- `RepositoryInstanceConfig` (rc 20-25). -/
def repositoryInstance : Ty Ver :=
  .complex .ok
    (.cons { name := "type".toList, key := ["type".toList] } (.leaf idCodec)
    (.cons { name := "bind_only".toList, key := ["bind-only".toList], default := .raw (.bool false) } (.leaf idCodec)
    (.cons { name := "args".toList, key := ["args".toList], leftover := true } .unknown .nil)))

/-- `RepositoriesConfiguration` (rc 28-32): `Mapping[..]` has no codec (cc 286-300: its origin is
`collections.abc.Mapping`). -/
def repositories : Ty Ver :=
  .complex .ok
    (.cons { name := "repos".toList, key := ["repos".toList], default := .dict [] } (.dict repositoryInstance)
    (.cons { name := "inheritance".toList, key := ["inheritance".toList], default := .raw (.str "context".toList) }
      (.leaf idCodec)
    (.cons { name := "package_bindings".toList, key := ["package-bindings".toList], default := .dict [] } .unknown
      .nil)))

end Config
end Pkm
