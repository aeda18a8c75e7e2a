import Verif.Dist.EntryPointsProps
/-
Model of the entry points of a project: pkm/src/pkm/api/projects/pyproject_configuration.py 57-58, 156-182 ("pp"), and property C66:
they are in the distribution that is built (pkm/src/pkm/build/pkm_builders.py 140-142, "pb").
-/
namespace Pkm.Projects
open Entry

/-- The three tables of the configuration (pp 156-158). -/
structure Scripts where
  entryPoints : Dict Text (Dict Text Text) := []
  scripts : Dict Text Text := []
  guiScripts : Dict Text Text := []

/-- `_entrypoints_from_config` (pp 57-58). -/
def fromTable (group : Text) (ep : Dict Text Text) : List EntryPoint := ep.map (fun kv => ⟨group, kv.1, Ref.parse kv.2⟩)

/-- The key and the entries that are added to the result if the table is not empty (pp 169-174). -/
def tableOf (key group : Text) (ep : Dict Text Text) : Dict Text (List EntryPoint) :=
  if ep = [] then [] else [(key, fromTable group ep)]

/-- `entry_points` (pp 164-176) with that depth of the stack; `none` is `RecursionError`. If there is an `entry-points` table, the
property asks for itself (pp 168); its lock is reentrant and its value not stored yet, so it is computed again (what would be done
with an answer, which there never is, is not modelled). The entries of the
gui table get the group of the console scripts (pp 174). -/
def entryPoints : Nat → Scripts → Option (Dict Text (List EntryPoint))
  | 0, _ => none
  | n + 1, s =>
    if s.entryPoints ≠ [] then
      match entryPoints n s with
      | none => none
      | some _ => none
    else some (tableOf t!"console_scripts" t!"console_scripts" s.scripts ++
      tableOf t!"gui_scripts" t!"console_scripts" s.guiScripts)

/-- `all_entrypoints` (pp 178-182). -/
def allEntrypoints (n : Nat) (s : Scripts) : Option (List EntryPoint) := (entryPoints n s).map (fun d => (Dict.values d).flatten)

/-- What the distribution has: `entrypoints.entrypoints = project.all_entrypoints(); entrypoints.save()` (pb 140-142); `none` is an
exception. -/
def builtEntrypoints (n : Nat) (s : Scripts) : Option Text :=
  match allEntrypoints n s with
  | none => none
  | some es => match saveEntries es with
    | .ok t => some t
    | .error _ => none

end Pkm.Projects

namespace Pkm.Spec
open Entry Projects

/-- The entry points a configuration declares. -/
def declared (s : Scripts) : List EntryPoint :=
  s.entryPoints.flatMap (fun g => g.2.map (fun kv => ⟨g.1, kv.1, Ref.parse kv.2⟩)) ++
  s.scripts.map (fun kv => ⟨t!"console_scripts", kv.1, Ref.parse kv.2⟩) ++
  s.guiScripts.map (fun kv => ⟨t!"gui_scripts", kv.1, Ref.parse kv.2⟩)

end Pkm.Spec

namespace Pkm.Projects
open Entry Spec

/-- C66: a project with a table of scripts only (distinct names that fit the format, references without extras) is built with
exactly these entry points. What is missing: gui scripts (`project_gui_violated`) and other entry points
(`project_entry_points_violated`). -/
theorem project_scripts_partial (s : Scripts) (n : Nat) (he : s.entryPoints = []) (hg : s.guiScripts = [])
    (hw : (Dict.keys s.scripts).Nodup) (h : ∀ e, e ∈ declared s → PlainEntry e) :
    ∃ text got, builtEntrypoints (n + 1) s = some text ∧ loadEntries text = .ok got ∧ got.Perm (declared s) := by
  have hd : declared s = fromTable t!"console_scripts" s.scripts := by
    simp [declared, he, hg, fromTable]
  have ha : allEntrypoints (n + 1) s = some (declared s) := by
    rw [hd]
    by_cases hs : s.scripts = []
    · simp [allEntrypoints, entryPoints, he, hg, hs, tableOf, fromTable, Dict.values]
    · simp [allEntrypoints, entryPoints, he, hg, hs, tableOf, Dict.values]
  have hnd : ((declared s).map (fun e => (e.group, e.name))).Nodup := by
    rw [hd]
    simp only [fromTable, List.map_map]
    have : (fun e : EntryPoint => (e.group, e.name)) ∘ (fun kv : Text × Text => (⟨t!"console_scripts", kv.1, Ref.parse kv.2⟩ : EntryPoint)) =
        (fun k => (t!"console_scripts", k)) ∘ (fun kv : Text × Text => kv.1) := rfl
    rw [this, ← List.map_map]
    exact List.Pairwise.map _ (fun a b hab h => hab (by simpa using h)) hw
  obtain ⟨text, got, h1, h2, h3⟩ := entrypoints_round_trip_partial (declared s) hnd h
  exact ⟨text, got, by simp [builtEntrypoints, ha, h1], h2, h3⟩

/-- The script `tool = "pkg.main:run"` meets the hypotheses. -/
example : let s : Scripts := { scripts := [(t!"tool", t!"pkg.main:run")] }
    (Dict.keys s.scripts).Nodup ∧ (∀ e, e ∈ declared s → PlainEntry e) ∧
    builtEntrypoints 1 s = some t!"[console_scripts]\ntool = pkg.main:run\n\n" := by
  refine ⟨by decide, ?_, by rfl⟩
  intro e he
  have : e = ⟨t!"console_scripts", t!"tool", ⟨t!"pkg.main", some t!"run", none⟩⟩ := by
    have h : declared { scripts := [(t!"tool", t!"pkg.main:run")] } =
        [⟨t!"console_scripts", t!"tool", ⟨t!"pkg.main", some t!"run", none⟩⟩] := by decide
    rw [h] at he
    simpa using he
  subst this
  exact ⟨⟨Example.oneLine _ (by decide), by decide, by decide⟩,
    ⟨Example.oneLine _ (by decide), by decide, by decide, by decide, by decide⟩,
    ⟨⟨Example.oneLine _ (by decide), by decide, by decide⟩,
      by rintro o h; cases h; exact ⟨Example.oneLine _ (by decide), by decide, by decide⟩, rfl⟩⟩

/-- C66 fails for gui scripts: they are built as console scripts. -/
theorem project_gui_violated :
    let s : Scripts := { guiScripts := [(t!"tool", t!"pkg.main:run")] }
    declared s = [⟨t!"gui_scripts", t!"tool", ⟨t!"pkg.main", some t!"run", none⟩⟩] ∧
    ∃ text, builtEntrypoints 1 s = some text ∧
      loadEntries text = .ok [⟨t!"console_scripts", t!"tool", ⟨t!"pkg.main", some t!"run", none⟩⟩] :=
  ⟨by decide, _, by rfl, by rfl⟩

/-- C66 fails for every project with other entry points: it cannot be built, however deep the stack may get. -/
theorem project_entry_points_violated (s : Scripts) (h : s.entryPoints ≠ []) (n : Nat) : builtEntrypoints n s = none := by
  have : entryPoints n s = none := by
    induction n with
    | zero => rfl
    | succ n ih => simp [entryPoints, h, ih]
  simp [builtEntrypoints, allEntrypoints, this]

end Pkm.Projects
