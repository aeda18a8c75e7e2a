import Verif.Projects.Releases
/-
The attached environment of a project (C77).
-/
set_option linter.unusedVariables false
set_option linter.unusedSimpArgs false
namespace Pkm

/-! ### specification -/
namespace Spec

/-- Is the path in the directory, or the directory itself? -/
def Under (d p : List Text) : Prop := ∃ r, p = d ++ r

/-- Something is at the path: a file, or a directory with a file in it. -/
def Exists {C : Type} (f : Dict (List Text) C) (d : List Text) : Prop := ∃ p c, (p, c) ∈ f ∧ Under d p

/-- A virtual environment: its configuration and its interpreter are there. -/
def IsVenv {C : Type} (f : Dict (List Text) C) (d : List Text) : Prop :=
  Exists f (d ++ [t!"pyvenv.cfg"]) ∧
    (Exists f (d ++ [t!"bin", t!"python"]) ∨ Exists f (d ++ [t!"Scripts", t!"python.exe"]))

end Spec

namespace Releases
open Spec
variable {C : Type}

theorem below_iff (d p : Path) : below d p = true ↔ Under d p := by
  unfold below Under
  rw [List.isPrefixOf_iff_prefix]
  constructor
  · rintro ⟨r, h⟩; exact ⟨r, h.symm⟩
  · rintro ⟨r, h⟩; exact ⟨r, h.symm⟩

theorem existsAt_iff (f : Disk C) (d : Path) : existsAt f d = true ↔ Spec.Exists f d := by
  unfold existsAt Spec.Exists
  rw [List.any_eq_true]
  constructor
  · rintro ⟨⟨p, c⟩, hm, hb⟩; exact ⟨p, c, hm, (below_iff _ _).1 hb⟩
  · rintro ⟨p, c, hm, hb⟩; exact ⟨(p, c), hm, (below_iff _ _).2 hb⟩

theorem isVenv_iff (f : Disk C) (d : Path) : isVenv f d = true ↔ IsVenv f d := by
  unfold isVenv IsVenv
  rw [Bool.and_eq_true, Bool.or_eq_true, existsAt_iff, existsAt_iff, existsAt_iff]

/-! ### C77 -/

/-- An environment that exists is used as it is: no file changes. -/
theorem attached_existing (f : Disk C) (d : Path) (fresh : Option (List (Path × C))) (h : IsVenv f d) :
    attach f d fresh = (f, true) := by
  unfold attach
  rw [if_pos ((isVenv_iff f d).2 h)]

/-- No file outside the directory of the environment is created, changed or removed. -/
theorem attached_outside (f : Disk C) (d : Path) (fresh : Option (List (Path × C))) (p : Path) (c : C) (h : ¬ Under d p) :
    (p, c) ∈ (attach f d fresh).1 ↔ (p, c) ∈ f := by
  have hb : below d p = false := by
    cases hh : below d p with
    | false => rfl
    | true => exact absurd ((below_iff _ _).1 hh) h
  unfold attach
  split
  · exact Iff.rfl
  · split
    · exact Iff.rfl
    · split
      · simp [rmtree, hb]
      · rename_i xs
        simp only [rmtree, created, List.mem_append, List.mem_filter, List.mem_map, Prod.mk.injEq]
        constructor
        · rintro (⟨h1, -⟩ | ⟨x, -, h2, -⟩)
          · exact h1
          · exact absurd ⟨x.1, h2.symm⟩ h
        · exact fun h1 => Or.inl ⟨h1, by simp [hb]⟩

/-- In a place where nothing is yet a new environment is made, and asking again gives the same environment. -/
theorem attached_created (f : Disk C) (d : Path) (xs : List (Path × C)) (hf : ¬ Spec.Exists f d)
    (hx : IsVenv (created d xs) d) (again : Option (List (Path × C))) :
    (attach f d (some xs)) = (f ++ created d xs, true) ∧
    attach (attach f d (some xs)).1 d again = ((attach f d (some xs)).1, true) := by
  have hno : ∀ x ∈ f, below d x.1 = false := by
    intro x hx
    cases hh : below d x.1 with
    | false => rfl
    | true => exact absurd ⟨x.1, x.2, hx, (below_iff _ _).1 hh⟩ hf
  have hv : ¬ isVenv f d = true := by
    rw [isVenv_iff]
    rintro ⟨⟨p, c, hm, r, hr⟩, -⟩
    exact hf ⟨p, c, hm, [t!"pyvenv.cfg"] ++ r, by rw [hr, List.append_assoc]⟩
  have hc : ¬ (f.map (·.1)).contains d = true := by
    intro hh
    rw [List.contains_iff_mem, List.mem_map] at hh
    obtain ⟨x, hm, he⟩ := hh
    exact hf ⟨x.1, x.2, hm, [], by rw [he, List.append_nil]⟩
  have hr : rmtree f d = f := by
    unfold rmtree
    apply List.filter_eq_self.2
    intro x hx
    simp [hno x hx]
  have e : attach f d (some xs) = (f ++ created d xs, true) := by
    unfold attach
    rw [if_neg hv, if_neg hc, hr]
  refine ⟨e, ?_⟩
  rw [e]
  refine attached_existing _ _ _ ?_
  obtain ⟨⟨p, c, hm, hu⟩, h2⟩ := hx
  refine ⟨⟨p, c, List.mem_append_right _ hm, hu⟩, ?_⟩
  rcases h2 with ⟨p, c, hm, hu⟩ | ⟨p, c, hm, hu⟩
  · exact Or.inl ⟨p, c, List.mem_append_right _ hm, hu⟩
  · exact Or.inr ⟨p, c, List.mem_append_right _ hm, hu⟩

/-- Whatever directory is configured, if it is not an environment everything in it is deleted, also if no interpreter
is found. -/
theorem attached_wiped_violated (f : Disk C) (d : Path) (fresh : Option (List (Path × C)))
    (hv : ¬ IsVenv f d) (hd : ∀ c, (d, c) ∉ f) :
    ∀ p c, (p, c) ∈ (attach f d fresh).1 → Under d p → ∃ xs, fresh = some xs ∧ ∃ x ∈ xs, p = d ++ x.1 ∧ c = x.2 := by
  intro p c hm hu
  have h1 : ¬ isVenv f d = true := fun h => hv ((isVenv_iff _ _).1 h)
  have h2 : ¬ (f.map (·.1)).contains d = true := by
    intro hh
    rw [List.contains_iff_mem, List.mem_map] at hh
    obtain ⟨⟨p, c⟩, hm, he⟩ := hh
    exact hd c (he ▸ hm)
  have hb : below d p = true := (below_iff _ _).2 hu
  unfold attach at hm
  rw [if_neg h1, if_neg h2] at hm
  cases fresh with
  | none => simp [rmtree, hb] at hm
  | some xs =>
    refine ⟨xs, rfl, ?_⟩
    simp only [rmtree, created, List.mem_append, List.mem_filter, hb, Bool.not_true, Bool.false_eq_true, and_false, false_or,
      List.mem_map] at hm
    obtain ⟨x, hx, he⟩ := hm
    cases he
    exact ⟨x, hx, rfl, rfl⟩

/-- Where the environment is: the project's own settings go before those of the group, a path before a zoo, and without
settings it is `.venv` in the project. -/
theorem attached_place (project : Path) (name : Text) :
    (∀ own group p, own = some p → envPath project name own group = envPath project name own none) ∧
    (∀ group, envPath project name none group = envPath project name group none) ∧
    (∀ p z, envPath project name (some ⟨some p, z⟩) none = p) ∧
    (∀ z, envPath project name (some ⟨none, some z⟩) none = z ++ [name]) ∧
    envPath project name (some ⟨none, none⟩) none = project ++ [t!".venv"] ∧
    envPath project name none none = project ++ [t!".venv"] := by
  refine ⟨?_, ?_, ?_, ?_, rfl, rfl⟩
  · rintro own group p rfl; rfl
  · intro group; cases group <;> rfl
  · intro p z; rfl
  · intro z; rfl

/-- Two projects of one name in a zoo have the same environment. -/
theorem attached_zoo_shared_violated (p q : Path) (name : Text) (z : Path) (g h : Option EnvCfg) :
    envPath p name (some ⟨none, some z⟩) g = envPath q name (some ⟨none, some z⟩) h := rfl

/-- Two projects with the default settings have different environments if they are different. -/
theorem attached_default_separate (p q : Path) (n k : Text) (h : envPath p n none none = envPath q k none none) : p = q := by
  simpa [envPath] using h

/-! ### examples -/

def exFiles : Disk Nat := [([t!"p", t!"pyproject.toml"], 1), ([t!"p", t!".venv", t!"pyvenv.cfg"], 2), ([t!"p", t!".venv", t!"bin", t!"python"], 3)]

example : IsVenv exFiles [t!"p", t!".venv"] :=
  ⟨⟨[t!"p", t!".venv", t!"pyvenv.cfg"], 2, by simp [exFiles], [], rfl⟩,
   Or.inl ⟨[t!"p", t!".venv", t!"bin", t!"python"], 3, by simp [exFiles], [], rfl⟩⟩

example : attach exFiles [t!"p", t!".venv"] none = (exFiles, true) := rfl

/-- A configuration that names the project's directory deletes the project, even if no interpreter fits. -/
example : attach exFiles [t!"p"] none = ([], false) := rfl

example : attach exFiles [t!"e"] (some [([t!"pyvenv.cfg"], 8), ([t!"bin", t!"python"], 9)]) =
    (exFiles ++ [([t!"e", t!"pyvenv.cfg"], 8), ([t!"e", t!"bin", t!"python"], 9)], true) := rfl

end Releases
end Pkm
