import Verif.Files.Lemmas
set_option linter.unusedVariables false
set_option linter.unusedSimpArgs false
set_option linter.unusedSectionVars false
/-
Properties C24 (uninstall) and C28 (relative paths).
-/
namespace Pkm
open Files Files.FS

variable {C : Type}

namespace Spec

/-- The files that an installed package owns: those listed in RECORD (relative to the site) and RECORD
itself. -/
def Recorded (distInfo : Path) (records : List Text) (f : Path) : Prop :=
  (∃ r ∈ records, f = resolveFrom (parent distInfo) r) ∨ f = "RECORD".toList :: distInfo

/-- A possible name of a file or directory. -/
def ValidName (c : Text) : Prop := c ≠ [] ∧ '/' ∉ c ∧ c ≠ ['.'] ∧ c ≠ ['.', '.']

end Spec
open Spec

namespace Files

theorem mem_installedFiles (distInfo : Path) (records : List Text) (f : Path) :
    f ∈ installedFiles distInfo records ↔ Recorded distInfo records f := by
  unfold installedFiles Recorded
  simp only [List.mem_append, List.mem_map, List.mem_singleton]
  constructor
  · rintro (⟨r, h, rfl⟩ | h)
    · exact Or.inl ⟨r, h, rfl⟩
    · exact Or.inr h
  · rintro (⟨r, h, rfl⟩ | h)
    · exact Or.inl ⟨r, h, rfl⟩
    · exact Or.inr h

/-- The steps of a successful uninstallation. -/
theorem uninstall_steps (pick : List Path → Nat) (distInfo : Path) (records : List Text) (fs fs' : FS C)
    (h : uninstall pick distInfo records fs = some fs') :
    ∃ fs1 work fs2,
      (∀ k, Dict.get fs1 k = if k ∈ installedFiles distInfo records then none else Dict.get fs k) ∧
      (∀ p, p ∈ work ↔ ∃ f ∈ installedFiles distInfo records, parent f = p) ∧
      (∀ f ∈ installedFiles distInfo records, Dict.get fs f ≠ some .dir) ∧
      Sub fs2 fs1 ∧
      (∀ k n, Dict.get fs1 k = some n → Dict.get fs2 k = none → Cleaned (parent distInfo) work fs2 k n) ∧
      (∀ d, parent distInfo <:+ d → d ≠ parent distInfo → isEmptyDir fs2 d = true →
        isEmptyDir fs1 d = true ∧ d ∉ work) ∧
      (Tree fs → Tree fs2) ∧
      ((Dict.get fs2 distInfo = some .dir ∧ fs' = dropTree fs2 distInfo) ∨
       (Dict.get fs2 distInfo = none ∧ fs' = fs2)) := by
  unfold uninstall at h
  cases h1 : unlinkAll (installedFiles distInfo records) fs [] with
  | none => rw [h1] at h; simp at h
  | some r =>
    obtain ⟨fs1, work⟩ := r
    rw [h1] at h
    dsimp only at h
    obtain ⟨a1, a2, a3, a4⟩ := unlinkAll_spec _ _ _ _ _ h1
    obtain ⟨fs2, e, b1, b2, b3, b4⟩ := cleanParents_spec pick (parent distInfo) (work.length + fs1.length + 1) fs1 work
      (by omega)
    rw [e] at h
    dsimp only at h
    refine ⟨fs1, work, fs2, a1, by simpa using a2, a4, b1, b2, b3, fun ht => b4 (a3 ht), ?_⟩
    cases hd : Dict.get fs2 distInfo with
    | none =>
      have : fs2.ex distInfo = false := by simp [FS.ex, hd]
      rw [this] at h
      simp at h
      exact Or.inr ⟨rfl, h.symm⟩
    | some n =>
      have : fs2.ex distInfo = true := by simp [FS.ex, hd]
      rw [this, if_pos rfl] at h
      unfold rmtree at h
      split at h
      · rename_i hdir
        rw [isDir_iff, hd] at hdir
        simp at h hdir
        subst hdir
        exact Or.inl ⟨rfl, h.symm⟩
      · simp at h

end Files
open Files

/-! ## C24 -/

/-- C24: uninstalling succeeds for every RECORD that lists no directory, whatever else it contains and
in whatever order `set.pop` takes the directories. -/
theorem uninstall_succeeds (pick : List Path → Nat) (distInfo : Path) (records : List Text) (fs : FS C)
    (hrec : ∀ f, Recorded distInfo records f → Dict.get fs f ≠ some .dir)
    (hdi : ∀ c, Dict.get fs distInfo ≠ some (.file c)) :
    ∃ fs', Files.uninstall pick distInfo records fs = some fs' := by
  unfold Files.uninstall
  obtain ⟨⟨fs1, work⟩, h1⟩ := unlinkAll_some (installedFiles distInfo records) fs []
    (fun f hf => hrec f ((mem_installedFiles _ _ _).1 hf))
  obtain ⟨a1, a2, a3, a4⟩ := unlinkAll_spec _ _ _ _ _ h1
  obtain ⟨fs2, e, b1, _⟩ := cleanParents_spec pick (parent distInfo) (work.length + fs1.length + 1) fs1 work
    (by omega)
  rw [h1]
  dsimp only
  rw [e]
  dsimp only
  split
  · rename_i hex
    unfold rmtree
    split
    · exact ⟨_, rfl⟩
    · rename_i hnd
      obtain ⟨n, hn⟩ := (ex_iff _ _).1 hex
      cases n with
      | dir => exact absurd ((isDir_iff _ _).2 hn) hnd
      | file c =>
        have := b1 _ _ hn
        rw [a1] at this
        split at this
        · simp at this
        · exact absurd this (hdi c)
  · exact ⟨_, rfl⟩

/-- C24: after uninstalling no recorded file is left, and nothing of the dist-info directory. -/
theorem uninstall_removes_recorded (pick : List Path → Nat) (distInfo : Path) (records : List Text)
    (fs fs' : FS C) (ht : Tree fs) (h : Files.uninstall pick distInfo records fs = some fs') :
    (∀ f, Recorded distInfo records f → Dict.get fs' f = none) ∧
    ∀ k, distInfo <:+ k → Dict.get fs' k = none := by
  obtain ⟨fs1, work, fs2, h1, h2, h3, h4, h5, h6, h7, h8⟩ := uninstall_steps pick distInfo records fs fs' h
  have hsub : Sub fs' fs2 := by
    rcases h8 with ⟨_, rfl⟩ | ⟨_, rfl⟩
    · exact dropTree_sub _ _
    · exact Sub.refl _
  refine ⟨?_, ?_⟩
  · intro f hf
    refine (hsub.trans h4).none ?_
    rw [h1, if_pos ((mem_installedFiles _ _ _).2 hf)]
  · intro k hk
    rcases h8 with ⟨_, rfl⟩ | ⟨hn, rfl⟩
    · rw [dropTree_get, if_pos hk]
    · obtain ⟨a, rfl⟩ := hk
      by_cases ha : a = []
      · subst ha; simpa using hn
      · refine tree_below _ (h7 ht) distInfo ?_ a ha
        intro x
        cases e : Dict.get fs' (x :: distInfo) with
        | none => rfl
        | some n => have := h7 ht _ _ _ e; rw [hn] at this; simp at this

/-- C24 (with the exceptions that the code makes): uninstalling creates and changes nothing, and the only
files it removes are the recorded ones, those in the dist-info directory and those in `__pycache__`
directories of directories (within the site) on the way to a recorded file. -/
theorem uninstall_touches_only_partial (pick : List Path → Nat) (distInfo : Path) (records : List Text)
    (fs fs' : FS C) (h : Files.uninstall pick distInfo records fs = some fs') :
    (∀ k n, Dict.get fs' k = some n → Dict.get fs k = some n) ∧
    ∀ k c, Dict.get fs k = some (.file c) → Dict.get fs' k = none →
      Recorded distInfo records k ∨ distInfo <:+ k ∨
      ∃ f d, Recorded distInfo records f ∧ d <:+ parent f ∧ d ≠ parent distInfo ∧
        isRelativeTo d (parent distInfo) = true ∧ (pycache :: d) <:+ k := by
  obtain ⟨fs1, work, fs2, h1, h2, h3, h4, h5, h6, h7, h8⟩ := uninstall_steps pick distInfo records fs fs' h
  have hsub1 : Sub fs1 fs := by
    intro k n hk; rw [h1] at hk; split at hk
    · simp at hk
    · exact hk
  have hsub : Sub fs' fs2 := by
    rcases h8 with ⟨_, rfl⟩ | ⟨_, rfl⟩
    · exact dropTree_sub _ _
    · exact Sub.refl _
  refine ⟨(hsub.trans h4).trans hsub1, ?_⟩
  intro k c hk hk'
  by_cases hr : k ∈ installedFiles distInfo records
  · exact Or.inl ((mem_installedFiles _ _ _).1 hr)
  · right
    have hk1 : Dict.get fs1 k = some (.file c) := by rw [h1, if_neg hr]; exact hk
    cases hk2 : Dict.get fs2 k with
    | some n =>
      left
      rcases h8 with ⟨_, rfl⟩ | ⟨_, rfl⟩
      · rw [dropTree_get] at hk'
        split at hk'
        · assumption
        · rw [hk2] at hk'; simp at hk'
      · rw [hk2] at hk'; simp at hk'
    | none =>
      right
      obtain ⟨d, w, hw, hdw, hd1, hd2, hd3⟩ := h5 k _ hk1 hk2
      obtain ⟨f, hf, rfl⟩ := (h2 w).1 hw
      rcases hd3 with hd3 | ⟨_, hd3, _⟩
      · exact ⟨f, d, (mem_installedFiles _ _ _).1 hf, hdw, hd1, hd2, hd3⟩
      · simp at hd3

/-- C24: the only directories that uninstalling removes are the dist-info directory, `__pycache__`
directories on the way to a recorded file, and directories on the way to a recorded file in which nothing
is left. -/
theorem uninstall_directories_partial (pick : List Path → Nat) (distInfo : Path) (records : List Text)
    (fs fs' : FS C) (h : Files.uninstall pick distInfo records fs = some fs') (k : Path)
    (hk : Dict.get fs k = some .dir) (hk' : Dict.get fs' k = none) :
    distInfo <:+ k ∨
    ∃ f d, Recorded distInfo records f ∧ d <:+ parent f ∧ d ≠ parent distInfo ∧
      isRelativeTo d (parent distInfo) = true ∧
      ((pycache :: d) <:+ k ∨ (k = d ∧ ∀ x, Dict.get fs' (x :: d) = none)) := by
  obtain ⟨fs1, work, fs2, h1, h2, h3, h4, h5, h6, h7, h8⟩ := uninstall_steps pick distInfo records fs fs' h
  have hsub : Sub fs' fs2 := by
    rcases h8 with ⟨_, rfl⟩ | ⟨_, rfl⟩
    · exact dropTree_sub _ _
    · exact Sub.refl _
  by_cases hr : k ∈ installedFiles distInfo records
  · exact absurd hk (h3 k hr)
  · have hk1 : Dict.get fs1 k = some .dir := by rw [h1, if_neg hr]; exact hk
    cases hk2 : Dict.get fs2 k with
    | some n =>
      left
      rcases h8 with ⟨_, rfl⟩ | ⟨_, rfl⟩
      · rw [dropTree_get] at hk'
        split at hk'
        · assumption
        · rw [hk2] at hk'; simp at hk'
      · rw [hk2] at hk'; simp at hk'
    | none =>
      right
      obtain ⟨d, w, hw, hdw, hd1, hd2, hd3⟩ := h5 k _ hk1 hk2
      obtain ⟨f, hf, rfl⟩ := (h2 w).1 hw
      refine ⟨f, d, (mem_installedFiles _ _ _).1 hf, hdw, hd1, hd2, ?_⟩
      rcases hd3 with hd3 | ⟨e, _, hd3⟩
      · exact Or.inl hd3
      · exact Or.inr ⟨e, fun x => hsub.none (hd3 x)⟩

/-- C24: uninstalling leaves no directory within the site empty that was not empty before, and none that
held a recorded file. -/
theorem uninstall_leaves_no_empty_directory (pick : List Path → Nat) (distInfo : Path) (records : List Text)
    (fs fs' : FS C) (hdi : distInfo ≠ []) (h : Files.uninstall pick distInfo records fs = some fs') (d : Path)
    (hd : parent distInfo <:+ d) (hne : d ≠ parent distInfo)
    (hem : Dict.get fs' d = some .dir ∧ ∀ x, Dict.get fs' (x :: d) = none) :
    (Dict.get fs d = some .dir ∧ ∀ x, Dict.get fs (x :: d) = none) ∧
    ∀ f, Recorded distInfo records f → parent f ≠ d := by
  obtain ⟨fs1, work, fs2, h1, h2, h3, h4, h5, h6, h7, h8⟩ := uninstall_steps pick distInfo records fs fs' h
  have hem2 : isEmptyDir fs2 d = true := by
    rw [isEmptyDir_iff]
    rcases h8 with ⟨_, rfl⟩ | ⟨_, rfl⟩
    · refine ⟨dropTree_sub _ _ _ _ hem.1, ?_⟩
      intro x
      have hx := hem.2 x
      rw [dropTree_get] at hx
      split at hx
      · rename_i hs
        rw [List.suffix_cons_iff] at hs
        rcases hs with e | e
        · exfalso; apply hne
          rw [e]; rfl
        · have := hem.1
          rw [dropTree_get, if_pos e] at this
          simp at this
      · exact hx
    · exact hem
  obtain ⟨a, b⟩ := h6 d hd hne hem2
  rw [isEmptyDir_iff] at a
  have hnw : ∀ f, f ∈ installedFiles distInfo records → parent f ≠ d := fun f hf e => b ((h2 d).2 ⟨f, hf, e⟩)
  refine ⟨⟨?_, ?_⟩, fun f hf => hnw f ((mem_installedFiles _ _ _).2 hf)⟩
  · have := a.1
    rw [h1] at this
    split at this
    · simp at this
    · exact this
  · intro x
    have := a.2 x
    rw [h1] at this
    split at this
    · rename_i hm; exact absurd rfl (hnw _ hm)
    · exact this

section
private def n (s : String) : Text := s.toList
private def site : Path := [n "site", n "v"]
private def di : Path := n "a-1.dist-info" :: site
/-- The packages `a` (being removed: `ns/a.py`, `../bin/a`, RECORD) and `b` (`ns/b.py` and its compiled form). -/
private def fs0 : FS Nat :=
  [([], .dir), ([n "v"], .dir), (site, .dir), ([n "bin", n "v"], .dir), ([n "a", n "bin", n "v"], .file 1),
   (n "ns" :: site, .dir), (n "a.py" :: n "ns" :: site, .file 2), (n "b.py" :: n "ns" :: site, .file 3),
   (n "m" :: n "sub" :: site, .dir), (n "sub" :: site, .dir), (n "x.py" :: n "m" :: n "sub" :: site, .file 9),
   (di, .dir), (n "RECORD" :: di, .file 4), (n "METADATA" :: di, .file 5)]
private def recs : List Text := [n "ns/a.py", n "../bin/a", n "sub/./m/x.py", n "ns/gone.py"]

example : Files.uninstall (fun _ => 0) di recs fs0 = some
    [([], .dir), ([n "v"], .dir), (site, .dir), ([n "bin", n "v"], .dir), (n "ns" :: site, .dir),
     (n "b.py" :: n "ns" :: site, .file 3)] := by decide
example : (∀ f ∈ installedFiles di recs, Dict.get fs0 f ≠ some .dir) ∧ di ≠ [] := by decide

/-- C24 fails: uninstalling `a` also deletes the compiled form of `b`'s module, a file that `a` does not
list (and `b` does). -/
theorem uninstall_pycache_violated :
    Dict.get (Dict.put (Dict.put fs0 (pycache :: n "ns" :: site) .dir) (n "b.pyc" :: pycache :: n "ns" :: site) (.file 6))
      (n "b.pyc" :: pycache :: n "ns" :: site) = some (.file 6) ∧
    (Files.uninstall (fun _ => 0) di recs
      (Dict.put (Dict.put fs0 (pycache :: n "ns" :: site) .dir) (n "b.pyc" :: pycache :: n "ns" :: site) (.file 6))).map
      (fun fs => Dict.get fs (n "b.pyc" :: pycache :: n "ns" :: site)) = some none := by decide

/-- C24: "within the site" is decided on texts, so that directories next to the site whose names start
like the site's are treated as part of it: `site2` is removed. -/
theorem uninstall_sibling_violated :
    ¬ (site <:+ [n "site2", n "v"]) ∧
    (Files.uninstall (fun _ => 0) di [n "../site2/f"]
      (Dict.put (Dict.put fs0 [n "site2", n "v"] .dir) [n "f", n "site2", n "v"] (.file 7))).map
      (fun fs => Dict.get fs [n "site2", n "v"]) = some none := by decide
end

/-! ## C28 -/

namespace Files

theorem pathToLoop_some (destination : Path) (hd : destination ≠ []) : ∀ (source : Path) (fuel back : Nat),
    source.length < fuel → ∃ k cs p, pathToLoop destination fuel source back = some (back + k, cs) ∧ cs ≠ [] ∧
      cs.reverse ++ p = destination ∧ ∀ rest : List Text,
        (List.replicate k ['.', '.'] ++ rest).foldl stepPath source = rest.foldl stepPath p := by
  intro source
  induction source with
  | nil =>
    intro fuel back hf
    obtain ⟨fuel, rfl⟩ : ∃ f, fuel = f + 1 := ⟨fuel - 1, by simp at hf; omega⟩
    refine ⟨0, destination.reverse, [], ?_, by simpa using hd, by simp, by intro rest; simp⟩
    unfold pathToLoop
    rw [if_pos ⟨hd, by simp⟩]
    simp
  | cons x p ih =>
    intro fuel back hf
    obtain ⟨fuel, rfl⟩ : ∃ f, fuel = f + 1 := ⟨fuel - 1, by simp at hf; omega⟩
    unfold pathToLoop
    by_cases hc : destination ≠ x :: p ∧ (x :: p).isSuffixOf destination = true
    · rw [if_pos hc]
      obtain ⟨hne, hs⟩ := hc
      rw [List.isSuffixOf_iff_suffix] at hs
      obtain ⟨a, rfl⟩ := hs
      refine ⟨0, a.reverse, x :: p, ?_, ?_, by simp, by intro rest; simp⟩
      · simp
      · rintro h
        simp at h; subst h
        exact hne rfl
    · rw [if_neg hc]
      obtain ⟨k, cs, q, h1, h2, h3, h4⟩ := ih fuel (back + 1) (by simp at hf; omega)
      refine ⟨k + 1, cs, q, ?_, h2, h3, ?_⟩
      · rw [show back + (k + 1) = back + 1 + k by omega]; exact h1
      · intro rest
        rw [List.replicate_succ, List.cons_append, List.foldl_cons, ← h4 rest]
        rfl

theorem foldl_names (cs : List Text) (h : ∀ c ∈ cs, ValidName c) : ∀ p, cs.foldl stepPath p = cs.reverse ++ p := by
  induction cs with
  | nil => intro p; rfl
  | cons c cs ih =>
    intro p
    obtain ⟨h1, h2, h3, h4⟩ := h c (by simp)
    rw [List.foldl_cons]
    have : stepPath p c = c :: p := by simp [stepPath, h1, h3, h4]
    rw [this, ih (fun x hx => h x (by simp [hx]))]
    simp

end Files

/-- C28 (except for the root as destination): `path_to` gives a path that leads from `source` to
`destination`, after at most as many steps as `source` has components. -/
theorem path_to_leads_partial (source destination : Path) (hd : destination ≠ [])
    (hn : ∀ c ∈ destination, ValidName c) (fuel : Nat) (hf : source.length < fuel) :
    ∃ t, pathTo fuel source destination = some t ∧ resolveFrom source t = destination := by
  obtain ⟨k, cs, p, h1, h2, h3, h4⟩ := pathToLoop_some destination hd source fuel 0 hf
  have hv : ∀ c ∈ cs, ValidName c := by
    intro c hc
    apply hn
    rw [← h3]
    simp [hc]
  refine ⟨_, by unfold pathTo; rw [h1]; rfl, ?_⟩
  simp only [Nat.zero_add]
  unfold resolveFrom
  rw [splitOn_back, splitOn_joinSlash cs h2 (fun c hc => (hv c hc).2.1)]
  have hstart : startOf source ((List.replicate k ['.', '.', '/']).flatten ++ joinSlash cs) = source := by
    unfold startOf
    rw [if_neg]
    cases k with
    | zero =>
      cases cs with
      | nil => exact absurd rfl h2
      | cons c cs =>
        obtain ⟨a, b, _⟩ := hv c (by simp)
        cases c with
        | nil => exact absurd rfl a
        | cons y ys =>
          have hy : y ≠ '/' := fun e => b (by simp [e])
          cases cs <;> simp [joinSlash, hy]
    | succ k => simp [List.replicate_succ]
  rw [hstart, h4, foldl_names cs hv, h3]

/-- C28 fails for the root: `path_to(source, "/")` never returns. -/
theorem path_to_root_violated (fuel : Nat) (source : Path) : pathTo fuel source [] = none := by
  unfold pathTo
  have : ∀ back, pathToLoop [] fuel source back = none := by
    induction fuel generalizing source with
    | zero => intro back; rfl
    | succ fuel ih =>
      intro back
      unfold pathToLoop
      rw [if_neg]
      · exact ih _ _
      · rintro ⟨a, b⟩
        rw [List.isSuffixOf_iff_suffix] at b
        exact a (List.suffix_nil.1 b).symm
  rw [this]; rfl

example : pathTo 4 [n "site", n "v"] [n "a", n "bin", n "v"] = some (n "../bin/a") := by decide
example : pathTo 4 [n "v"] [n "v"] = some (n "../v") := by decide
example : ValidName (n "a.py") := by unfold ValidName; decide

end Pkm
