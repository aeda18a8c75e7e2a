import Verif.Environments.Shared
set_option linter.unusedVariables false
set_option linter.unusedSimpArgs false
/-
Property C43: cleaning the shared packages.
-/
namespace Pkm.Shared
variable {C : Type}

/-- The artifact directory `p/v/s` exists and has the content `c`. -/
def Has (d : Workspace C) (p v s : Text) (c : C) : Prop :=
  ∃ l1 l2, (p, Entry.dir l1) ∈ d ∧ (v, Entry.dir l2) ∈ l1 ∧ (s, Entry.dir c) ∈ l2

/-- Some environment has an installed package whose `SHARED` file names the directory. -/
def Used (envs : List (List Marker)) (path : Text) : Prop := ∃ env, env ∈ envs ∧ some path ∈ env

theorem mem_used (envs : List (List Marker)) (path : Text) : path ∈ usedPaths envs ↔ Used envs path := by
  simp only [usedPaths, Used, List.mem_filterMap, List.mem_flatten, id]
  constructor
  · rintro ⟨a, ⟨l, h1, h2⟩, rfl⟩; exact ⟨l, h1, h2⟩
  · rintro ⟨l, h1, h2⟩; exact ⟨_, ⟨l, h1, h2⟩, rfl⟩

/-- C43: after cleaning, exactly those artifact directories exist that existed before and that an
environment names, with the content they had. -/
theorem shared_kept_iff (envs : List (List Marker)) (ws : Text) (d : Workspace C) (p v s : Text) (c : C) :
    Has (removeUnused envs ws d) p v s c ↔ Has d p v s c ∧ Used envs (pathText ws p v s) := by
  rw [← mem_used]
  constructor
  · rintro ⟨l1, l2, h1, h2, h3⟩
    simp only [removeUnused, clean, List.mem_filterMap] at h1
    obtain ⟨⟨p0, e1⟩, hm1, h1⟩ := h1
    cases e1 with
    | file => simp at h1
    | dir m1 =>
      simp only at h1
      split at h1
      · simp at h1
      · simp at h1
        obtain ⟨rfl, rfl⟩ := h1
        simp only [cleanPackage, List.mem_filterMap] at h2
        obtain ⟨⟨v0, e2⟩, hm2, h2⟩ := h2
        cases e2 with
        | file => simp at h2
        | dir m2 =>
          simp only at h2
          split at h2
          · simp at h2
          · simp at h2
            obtain ⟨rfl, rfl⟩ := h2
            simp [cleanVersion] at h3
            exact ⟨⟨m1, m2, hm1, hm2, h3.1⟩, by simpa using h3.2⟩
  · rintro ⟨⟨l1, l2, h1, h2, h3⟩, hu⟩
    have m3 : (s, Entry.dir c) ∈ cleanVersion (usedPaths envs) ws p v l2 := by
      simp [cleanVersion, h3, hu]
    have m2 : (v, Entry.dir (cleanVersion (usedPaths envs) ws p v l2)) ∈
        cleanPackage (usedPaths envs) ws p l1 := by
      simp only [cleanPackage, List.mem_filterMap]
      refine ⟨_, h2, ?_⟩
      have : (cleanVersion (usedPaths envs) ws p v l2).isEmpty = false := by
        cases hx : cleanVersion (usedPaths envs) ws p v l2 with
        | nil => rw [hx] at m3; simp at m3
        | cons => rfl
      simp [this]
    have m1 : (p, Entry.dir (cleanPackage (usedPaths envs) ws p l1)) ∈ removeUnused envs ws d := by
      simp only [removeUnused, clean, List.mem_filterMap]
      refine ⟨_, h1, ?_⟩
      have : (cleanPackage (usedPaths envs) ws p l1).isEmpty = false := by
        cases hx : cleanPackage (usedPaths envs) ws p l1 with
        | nil => rw [hx] at m2; simp at m2
        | cons => rfl
      simp [this]
    exact ⟨_, _, m1, m2, m3⟩

/-- C43: files beside the directories are not removed. -/
theorem shared_files_kept (envs : List (List Marker)) (ws : Text) (d : Workspace C) (p v s : Text)
    (l1 : Dir (Dir C)) (l2 : Dir C) :
    ((p, Entry.file) ∈ d → (p, Entry.file) ∈ removeUnused envs ws d) ∧
    ((p, Entry.dir l1) ∈ d → (v, Entry.file) ∈ l1 →
      ∃ l1', (p, Entry.dir l1') ∈ removeUnused envs ws d ∧ (v, Entry.file) ∈ l1') ∧
    ((p, Entry.dir l1) ∈ d → (v, Entry.dir l2) ∈ l1 → (s, Entry.file) ∈ l2 →
      ∃ l1' l2', (p, Entry.dir l1') ∈ removeUnused envs ws d ∧ (v, Entry.dir l2') ∈ l1' ∧
        (s, Entry.file) ∈ l2') := by
  have nonempty : ∀ {α : Type} (l : List α) (x : α), x ∈ l → l.isEmpty = false := by
    intro α l x hx
    cases l with
    | nil => simp at hx
    | cons => rfl
  have up : ∀ x, (p, Entry.dir l1) ∈ d → x ∈ cleanPackage (usedPaths envs) ws p l1 →
      (p, Entry.dir (cleanPackage (usedPaths envs) ws p l1)) ∈ removeUnused envs ws d := by
    intro x h1 hx
    simp only [removeUnused, clean, List.mem_filterMap]
    exact ⟨_, h1, by simp [nonempty _ _ hx]⟩
  refine ⟨?_, ?_, ?_⟩
  · intro h
    simp only [removeUnused, clean, List.mem_filterMap]
    exact ⟨_, h, rfl⟩
  · intro h1 h2
    have m : (v, Entry.file) ∈ cleanPackage (usedPaths envs) ws p l1 := by
      simp only [cleanPackage, List.mem_filterMap]
      exact ⟨_, h2, rfl⟩
    exact ⟨_, up _ h1 m, m⟩
  · intro h1 h2 h3
    have m3 : (s, Entry.file) ∈ cleanVersion (usedPaths envs) ws p v l2 := by simp [cleanVersion, h3]
    have m2 : (v, Entry.dir (cleanVersion (usedPaths envs) ws p v l2)) ∈
        cleanPackage (usedPaths envs) ws p l1 := by
      simp only [cleanPackage, List.mem_filterMap]
      exact ⟨_, h2, by simp [nonempty _ _ m3]⟩
    exact ⟨_, _, up _ h1 m2, m2, m3⟩

/-- C43: no empty package or version directory is left. -/
theorem shared_no_empty (envs : List (List Marker)) (ws : Text) (d : Workspace C) (p : Text)
    (l1 : Dir (Dir C)) (h : (p, Entry.dir l1) ∈ removeUnused envs ws d) :
    l1 ≠ [] ∧ ∀ v l2, (v, Entry.dir l2) ∈ l1 → l2 ≠ [] := by
  simp only [removeUnused, clean, List.mem_filterMap] at h
  obtain ⟨⟨p0, e1⟩, hm1, h1⟩ := h
  cases e1 with
  | file => simp at h1
  | dir m1 =>
    simp only at h1
    split at h1
    · simp at h1
    · rename_i hne
      simp at h1
      obtain ⟨rfl, rfl⟩ := h1
      refine ⟨by intro h; rw [h] at hne; simp at hne, ?_⟩
      intro v l2 hv
      simp only [cleanPackage, List.mem_filterMap] at hv
      obtain ⟨⟨v0, e2⟩, hm2, h2⟩ := hv
      cases e2 with
      | file => simp at h2
      | dir m2 =>
        simp only at h2
        split at h2
        · simp at h2
        · rename_i hne2
          simp at h2
          obtain ⟨rfl, rfl⟩ := h2
          intro h; rw [h] at hne2; simp at hne2

theorem cleanVersion_twice (used : List Text) (ws p v : Text) (d : Dir C) :
    cleanVersion used ws p v (cleanVersion used ws p v d) = cleanVersion used ws p v d := by
  simp [cleanVersion]

theorem filterMap_twice {α : Type} (f : α → Option α) (h : ∀ x y, f x = some y → f y = some y) (l : List α) :
    (l.filterMap f).filterMap f = l.filterMap f := by
  induction l with
  | nil => rfl
  | cons x xs ih =>
    cases hx : f x with
    | none => simp [List.filterMap_cons, hx, ih]
    | some y => simp [List.filterMap_cons, hx, h x y hx, ih]

theorem cleanPackage_twice (used : List Text) (ws p : Text) (d : Dir (Dir C)) :
    cleanPackage used ws p (cleanPackage used ws p d) = cleanPackage used ws p d := by
  apply filterMap_twice
  rintro ⟨v, e⟩ y h
  cases e with
  | file => simp at h; subst h; rfl
  | dir c =>
    simp only at h
    split at h
    · simp at h
    · rename_i hne
      simp at h
      subst h
      simp only [cleanVersion_twice, if_neg hne]

/-- C43: cleaning again changes nothing. -/
theorem shared_idempotent (envs : List (List Marker)) (ws : Text) (d : Workspace C) :
    removeUnused envs ws (removeUnused envs ws d) = removeUnused envs ws d := by
  apply filterMap_twice
  rintro ⟨v, e⟩ y h
  cases e with
  | file => simp at h; subst h; rfl
  | dir c =>
    simp only at h
    split at h
    · simp at h
    · rename_i hne
      simp at h
      subst h
      simp only [cleanPackage_twice, if_neg hne]

/-- Two environments, three artifacts of which two are named: the third and its version are removed. -/
example : removeUnused [["/w/a/1/x".toList |> some, none], [some "/w/b/1/x".toList]] "/w".toList
    [(['a'], .dir [(['1'], .dir [(['x'], .dir 0)]), (['2'], .dir [(['x'], .dir 1)])]),
     (['b'], .dir [(['1'], .dir [(['x'], .dir 2)])])] =
    [(['a'], .dir [(['1'], .dir [(['x'], .dir 0)])]), (['b'], .dir [(['1'], .dir [(['x'], .dir 2)])])] := by
  rfl

/-- The directory a path text denotes: its components, `..` going up. -/
def denotes (path : Text) : List Text :=
  (go path []).foldl (fun acc c => if c = ['.', '.'] then acc.dropLast else if c = [] then acc else acc ++ [c]) []
where
  go : Text → Text → List Text
    | [], cur => [cur]
    | c :: cs, cur => if c = '/' then cur :: go cs [] else go cs (cur ++ [c])

/-- The texts are compared, not the directories: an artifact linked while the workspace was given by
another path to the same directory is deleted although it is used. -/
theorem shared_other_path_violated :
    let marker := "/h/../w/a/1/x".toList
    denotes marker = denotes (pathText "/w".toList ['a'] ['1'] ['x']) ∧
    Used [[some marker]] marker ∧
    removeUnused [[some marker]] "/w".toList [(['a'], .dir [(['1'], .dir [(['x'], .dir 0)])])] = [] := by
  exact ⟨by decide +kernel, ⟨_, List.mem_singleton.2 rfl, List.mem_singleton.2 rfl⟩, rfl⟩

end Pkm.Shared
