import Verif.Files.Wheel
set_option linter.unusedVariables false
set_option linter.unusedSimpArgs false
set_option linter.unusedSectionVars false
/-
The RECORD file of a package container: pkm/src/pkm/api/environments/package_containers.py 228-246 ("pc"), with `Record.absolute_path`
(pkm/src/pkm/api/distributions/distinfo.py 271-272, "di") and `sign_files` (di 281-306).
-/
namespace Pkm
namespace Files
variable {C S : Type}

/-- `record.absolute_path(dist_info)` (di 271-272). -/
def absolutePath (distInfo : Path) (r : Rec S) : Path := resolveFrom distInfo r.file

/-- The hashes that are not computed again (pc 236-240): for the packages in the container, given by their dist-info directory and
their records. -/
def containerHashes (root : Path) (pks : List (Path × List (Rec S))) : Dict Text (Option S) :=
  (pks.flatMap (fun p => p.2.map (fun r => (p.1, r)))).foldl
    (fun d e => match pathIn root (absolutePath e.1 e.2) with | some t => d.put t e.2.sig | none => d) []

/-- `sign_files` (di 281-306) with hashes of which some may be missing (`None`). -/
def signContainer (pre : Dict Text (Option S)) (hash : C → S) (fs : FS C) (root : Path) : List Path → List (Rec S)
  | [] => []
  | file :: files =>
    match Dict.get fs file with
    | some (.file c) =>
      match pathIn root file with
      | some t => ⟨t, (pre.get t).getD (some (hash c))⟩ :: signContainer pre hash fs root files
      | none => signContainer pre hash fs root files
    | _ => signContainer pre hash fs root files

theorem mem_signContainer (pre : Dict Text (Option S)) (hash : C → S) (fs : FS C) (root : Path) (r : Rec S) :
    ∀ files : List Path, r ∈ signContainer pre hash fs root files ↔
      ∃ f ∈ files, ∃ c t, Dict.get fs f = some (.file c) ∧ pathIn root f = some t ∧ r = ⟨t, (pre.get t).getD (some (hash c))⟩ := by
  intro files
  induction files with
  | nil => simp [signContainer]
  | cons file files ih =>
    unfold signContainer
    split
    · rename_i c hc
      split
      · rename_i t ht
        simp only [List.mem_cons, ih]
        constructor
        · rintro (h | ⟨f, hf, h⟩)
          · exact ⟨file, Or.inl rfl, c, t, hc, ht, h⟩
          · exact ⟨f, Or.inr hf, h⟩
        · rintro ⟨f, rfl | hf, h⟩
          · obtain ⟨c', t', h1, h2, h3⟩ := h
            rw [hc] at h1; cases h1
            rw [ht] at h2; cases h2
            exact Or.inl h3
          · exact Or.inr ⟨f, hf, h⟩
      · rename_i ht
        rw [ih]
        constructor
        · rintro ⟨f, hf, h⟩; exact ⟨f, by simp [hf], h⟩
        · rintro ⟨f, hf, h⟩
          rcases List.mem_cons.1 hf with rfl | hf
          · obtain ⟨c', t', h1, h2, h3⟩ := h
            rw [ht] at h2; cases h2
          · exact ⟨f, hf, h⟩
    · rename_i hc
      rw [ih]
      constructor
      · rintro ⟨f, hf, h⟩; exact ⟨f, by simp [hf], h⟩
      · rintro ⟨f, hf, h⟩
        rcases List.mem_cons.1 hf with rfl | hf
        · obtain ⟨c', t', h1, h2, h3⟩ := h
          exact absurd h1 (hc c')
        · exact ⟨f, hf, h⟩

theorem containerHashes_get (root : Path) (pks : List (Path × List (Rec S))) (t : Text) (s : Option S)
    (h : (containerHashes root pks).get t = some s) :
    ∃ p ∈ pks, ∃ r ∈ p.2, pathIn root (absolutePath p.1 r) = some t ∧ r.sig = s := by
  have key : ∀ (es : List (Path × Rec S)) (d : Dict Text (Option S)),
      (es.foldl (fun d e => match pathIn root (absolutePath e.1 e.2) with | some t => d.put t e.2.sig | none => d) d).get t = some s →
      d.get t = some s ∨ ∃ e ∈ es, pathIn root (absolutePath e.1 e.2) = some t ∧ e.2.sig = s := by
    intro es
    induction es with
    | nil => intro d h; exact Or.inl h
    | cons e es ih =>
      intro d h
      simp only [List.foldl_cons] at h
      rcases ih _ h with g | ⟨e', he', g⟩
      · clear h
        split at g
        · rename_i u hu
          rw [Dict.get_put] at g
          split at g
          · rename_i e2
            subst e2
            exact Or.inr ⟨e, by simp, hu, Option.some.inj g⟩
          · exact Or.inl g
        · exact Or.inl g
      · exact Or.inr ⟨e', by simp [he'], g⟩
  rcases key _ [] h with h | ⟨e, he, h1, h2⟩
  · simp [Dict.get] at h
  · obtain ⟨p, hp, hm⟩ := List.mem_flatMap.1 he
    obtain ⟨r, hr, rfl⟩ := List.mem_map.1 hm
    exact ⟨p, hp, r, hr, h1, h2⟩

end Files
open Spec Files Files.FS
variable {C S : Type}

/-- C55 (RECORD of a container): full statement: the record of each file of a container leads to it and has its signature. Proved if
what the records of the packages in the container name, read from their dist-info directories instead of the site directory, are no
files. -/
theorem container_record_partial (hash : C → S) (fs : FS C) (root : Path) (pks : List (Path × List (Rec S))) (files : List Path)
    (hn : ∀ f ∈ files, f ≠ [] ∧ ∀ c ∈ f, ValidName c)
    (hv : ∀ p ∈ pks, ∀ r ∈ p.2, ∀ x, resolveFrom p.1 r.file = x → (∀ c ∈ x, ValidName c) ∧ x ≠ [])
    (hno : ∀ p ∈ pks, ∀ r ∈ p.2, ∀ c, Dict.get fs (resolveFrom p.1 r.file) ≠ some (.file c)) :
    (∀ r ∈ signContainer (containerHashes root pks) hash fs root files,
      ∃ c, Dict.get fs (resolveFrom root r.file) = some (.file c) ∧ r.sig = some (hash c)) ∧
    ∀ p ∈ files, ∀ c, Dict.get fs p = some (.file c) →
      ∃ r ∈ signContainer (containerHashes root pks) hash fs root files, resolveFrom root r.file = p := by
  have lead : ∀ f, f ≠ [] → (∀ c ∈ f, ValidName c) → ∀ t, pathIn root f = some t → resolveFrom root t = f := by
    intro f h1 h2 t ht
    obtain ⟨t', h3, h4⟩ := path_to_leads_partial root f h1 h2 (root.length + 1) (by omega)
    unfold pathIn at ht
    rw [h3] at ht
    cases ht
    exact h4
  constructor
  · intro r hr
    obtain ⟨f, hf, c, t, h1, h2, rfl⟩ := (mem_signContainer _ hash fs root r files).1 hr
    have hl := lead f (hn f hf).1 (hn f hf).2 t h2
    refine ⟨c, by rw [hl]; exact h1, ?_⟩
    simp only
    cases hg : (containerHashes root pks).get t with
    | none => rfl
    | some s =>
      exfalso
      obtain ⟨p, hp, r', hr', h3, _⟩ := containerHashes_get root pks t s hg
      obtain ⟨v1, v2⟩ := hv p hp r' hr' _ rfl
      have hl' := lead _ v2 v1 t h3
      apply hno p hp r' hr' c
      rw [← hl', hl]
      exact h1
  · intro p hp c hc
    obtain ⟨t, h3, h4⟩ := path_to_leads_partial root p (hn p hp).1 (hn p hp).2 (root.length + 1) (by omega)
    exact ⟨_, (mem_signContainer _ hash fs root _ files).2 ⟨p, hp, c, t, hc, h3, rfl⟩, h4⟩

namespace Files.ContainerExample
def n (s : String) : Text := s.toList
/-- `/s` is the site directory of the environment, `/s/b` the container, `/s/b/site` its site directory. -/
def root : Path := [n "s"]
def di : Path := [n "p.dist-info", n "site", n "b", n "s"]
def fs : FS Nat := [([n "x", n "bin", n "b", n "s"], .file 1), ([n "x", n "bin", n "site", n "b", n "s"], .file 2)]
/-- The records of the package: its script and its module, with the right signatures. -/
def recs : List (Rec Nat) := [⟨n "../bin/x", some 1⟩, ⟨n "bin/x", some 2⟩]

/-- The package alone is recorded correctly if it has no script. -/
example : (signContainer (containerHashes root [(di, recs.drop 1)]) id fs root (fs.map (·.1))).map (fun r => (r.file, r.sig)) =
    [(n "b/bin/x", some 1), (n "b/site/bin/x", some 2)] := by decide
end Files.ContainerExample

/-- C55 is violated for containers: the hash of a script is recorded for a module, although all records in the container are right. -/
theorem container_record_violated : ∃ (fs : FS Nat) (root di : Path) (recs : List (Rec Nat)),
    (∀ r ∈ recs, ∃ c, Dict.get fs (resolveFrom (parent di) r.file) = some (.file c) ∧ r.sig = some c) ∧
    ∃ r ∈ signContainer (containerHashes root [(di, recs)]) id fs root (fs.map (·.1)), ∃ c,
      Dict.get fs (resolveFrom root r.file) = some (.file c) ∧ r.sig ≠ some c := by
  refine ⟨ContainerExample.fs, ContainerExample.root, ContainerExample.di, ContainerExample.recs, ?_, ?_⟩
  · intro r hr
    simp only [ContainerExample.recs, List.mem_cons, List.not_mem_nil, or_false] at hr
    rcases hr with rfl | rfl
    · exact ⟨1, by decide, rfl⟩
    · exact ⟨2, by decide, rfl⟩
  · exact ⟨⟨ContainerExample.n "b/site/bin/x", some 1⟩, by
      rw [mem_signContainer]
      exact ⟨[ContainerExample.n "x", ContainerExample.n "bin", ContainerExample.n "site", ContainerExample.n "b", ContainerExample.n "s"],
        by decide, 2, _, by decide, rfl, by rfl⟩, 2, by decide, by decide⟩

end Pkm
