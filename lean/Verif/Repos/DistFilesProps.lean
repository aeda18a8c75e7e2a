import Verif.Repos.DistFiles
import Verif.Repos.IndexProps
import Verif.VersionText.Props
import Verif.Names.Props
/-
Property C72: packages from distribution files and directories.
-/
set_option linter.unusedVariables false
set_option linter.unusedSimpArgs false

namespace Pkm
namespace DistFiles
open Spec Index

/-! ### names of distribution files -/

/-- C72: the name and version of a wheel are read off its file name. -/
theorem wheel_name_read (env : UrlEnv) (n v rest d : Text) (hn : '-' ∉ n) (hv : '-' ∉ v)
    (hd : descriptorName n = some d) :
    fromDistName env (n ++ '-' :: (v ++ '-' :: rest)) = .ok ⟨d, parseVersion env v⟩ := by
  simp only [fromDistName, Tags.splitOn_step '-' n _ hn, Tags.splitOn_step '-' v _ hv, mkDesc, hd]

example (env : UrlEnv) : fromDistName env t!"My_Pkg-1.0-py3-none-any.whl" =
    .ok ⟨t!"My-Pkg", .std { release := [1, 0] }⟩ := rfl

theorem parse_targz (env : UrlEnv) (v : SV) (hv : Printable v) (hl : v.loc = none) :
    parseVersion env (v.show ++ t!".tar.gz") = .std v := by
  have hch : ∀ c ∈ v.show ++ t!".tar.gz", isShowChar c = true := by
    intro c hc
    rcases List.mem_append.1 hc with hc | hc
    · exact show_chars v hv c hc
    · simp only [List.mem_cons, List.not_mem_nil, or_false] at hc
      rcases hc with rfl | rfl | rfl | rfl | rfl | rfl | rfl <;> decide
  have hlow : lower (v.show ++ t!".tar.gz") = v.show ++ t!".tar.gz" :=
    lower_id _ (fun c hc => showChar_not_upper c (hch c hc))
  obtain ⟨p, h1, _⟩ := readVersion_show v hv [] t!".tar.gz"
    (Or.inr (Or.inr ⟨hl, 't', _, rfl, Or.inr rfl⟩))
  have hu : contains [':', '/', '/'] (v.show ++ t!".tar.gz") = false :=
    contains_false _ _ _ (fun c hc e => by subst e; exact absurd (hch _ hc) (by decide))
  simp only [parseVersion, hlow, hu, PS.ofText]
  rw [h1]
  simp

theorem show_no_dash (v : SV) (hv : Printable v) : '-' ∉ v.show := by
  intro h
  exact absurd (show_chars v hv _ h) (by decide)

/-- C72: so are those of a source distribution whose name has no dash and whose version has no local label. Missing:
names with dashes and versions with a label, see `sdist_dashed_name_violated` and `sdist_label_violated`. -/
theorem sdist_name_read_partial (env : UrlEnv) (n d : Text) (v : SV) (hn : '-' ∉ n) (hv : Printable v)
    (hl : v.loc = none) (hd : descriptorName n = some d) :
    fromDistName env (n ++ '-' :: (v.show ++ t!".tar.gz")) = .ok ⟨d, .std v⟩ := by
  have h2 : '-' ∉ v.show ++ t!".tar.gz" := by
    intro h
    rcases List.mem_append.1 h with h | h
    · exact show_no_dash v hv h
    · revert h; decide
  simp only [fromDistName, Tags.splitOn_step '-' n _ hn, Tags.splitOn_one '-' _ h2, mkDesc, hd,
    parse_targz env v hv hl]

example (env : UrlEnv) : fromDistName env t!"demo-1.0rc1.post2.dev3.tar.gz" =
    .ok ⟨t!"demo", .std { release := [1, 0], pre := some (t!"rc", 1), post := some 2, dev := some 3 }⟩ := rfl

/-- C72 fails: a version with a local label takes the extension for a part of the label. -/
theorem sdist_label_violated (env : UrlEnv) (n d l : Text) (v : SV) (hn : '-' ∉ n) (hv : Printable v)
    (hl : v.loc = some l) (hd : descriptorName n = some d) :
    fromDistName env (n ++ '-' :: (v.show ++ t!".tar.gz")) =
      .ok ⟨d, .std { v with loc := some (l ++ t!".tar.gz") }⟩ := by
  have hp : Printable { v with loc := some (l ++ t!".tar.gz") } := by
    refine ⟨hv.release, hv.tag, ?_⟩
    intro k hk c hc
    simp only [Option.some.injEq] at hk
    subst hk
    rcases List.mem_append.1 hc with hc | hc
    · exact hv.label l hl c hc
    · simp only [List.mem_cons, List.not_mem_nil, or_false] at hc
      rcases hc with rfl | rfl | rfl | rfl | rfl | rfl | rfl <;> simp [isLower]
  have e : v.show ++ t!".tar.gz" = SV.show { v with loc := some (l ++ t!".tar.gz") } := by
    simp [SV.show, hl, showLoc, List.append_assoc]
  rw [e]
  simp only [fromDistName, Tags.splitOn_step '-' n _ hn, Tags.splitOn_one '-' _ (show_no_dash _ hp), mkDesc, hd,
    version_text_round_trip env _ hp]

example (env : UrlEnv) : fromDistName env t!"demo-1.0+cu11.tar.gz" =
    .ok ⟨t!"demo", .std { release := [1, 0], loc := some t!"cu11.tar.gz" }⟩ := rfl

/-- C72 fails: of a name with dashes only the part before the first dash is kept, and the next part of the name is
taken for the version, whatever the version is. -/
theorem sdist_dashed_name_violated (env : UrlEnv) (a b d rest : Text) (ha : '-' ∉ a) (hb : '-' ∉ b)
    (hd : descriptorName a = some d) :
    fromDistName env (a ++ '-' :: (b ++ '-' :: (rest ++ t!".tar.gz"))) = .ok ⟨d, parseVersion env b⟩ :=
  wheel_name_read env a b _ d ha hb hd

example (env : UrlEnv) : fromDistName env t!"my-pkg-1.0.tar.gz" = .ok ⟨t!"my", .named t!"pkg"⟩ := rfl

/-! ### dependencies -/

/-- C72 fails: no package from a distribution file can tell its dependencies, the request always raises
`AttributeError`; so none can be installed through the resolver. -/
theorem file_package_dependencies_violated {D : Type} (env : UrlEnv) (declared : Desc → List D) (applicable : D → Bool)
    (file : Text) (desc : Option Desc) (p : FPkg) (h : packageFrom env file desc = .ok p) :
    dependencies declared applicable p = .error .attribute := by
  have key : ∀ d, (if t!".whl".isSuffixOf file then Except.ok (FPkg.wheel d file)
      else Except.ok (FPkg.sdist d file)) = (Except.ok p : Except DErr FPkg) →
      dependencies declared applicable p = .error .attribute := by
    intro d hd
    split at hd <;> simp only [Except.ok.injEq] at hd <;> subst hd <;> rfl
  unfold packageFrom at h
  cases desc with
  | some d => exact key d h
  | none =>
    simp only at h
    cases hf : fromDistName env file with
    | error e => rw [hf] at h; simp at h
    | ok d => rw [hf] at h; exact key d h

example (env : UrlEnv) : ∃ p, packageFrom env t!"demo-1.0-py3-none-any.whl" none = .ok p := ⟨_, rfl⟩

/-! ### directories -/

/-- C72: a name is answered with exactly the packages of the directory whose descriptor has this very name and
whose version is allowed. -/
theorem directory_answer (env : UrlEnv) (d : Dir) (repo : Dict Text (List FPkg)) (ps : List FPkg) (dep : Text)
    (spec : VSpec) (hb : build env d = .ok repo) (ha : allPackages env d = .ok ps) (p : FPkg) :
    p ∈ dictMatch repo dep spec ↔ p ∈ ps ∧ p.desc.name = dep ∧ spec.allows p.desc.version = true := by
  simp only [build, ha, Except.ok.injEq] at hb
  subst hb
  simp only [dictMatch, (sortBy_perm _ _).mem_iff, List.mem_filter]
  rw [groupby_groups]
  by_cases he : (ps.filter (fun x => decide (x.desc.name = dep))).isEmpty
  · rw [if_pos he]
    rw [List.isEmpty_iff] at he
    simp only [Option.getD_none, List.not_mem_nil, false_and, false_iff]
    rintro ⟨h1, h2, _⟩
    have : p ∈ ps.filter (fun x => decide (x.desc.name = dep)) := List.mem_filter.2 ⟨h1, by simpa using h2⟩
    rw [he] at this; simp at this
  · rw [if_neg he]
    simp [List.mem_filter, and_assoc]

theorem groupPackages_desc (ps : List (Text × Ver)) : ∀ r, groupPackages ps = .ok r → ∀ p ∈ r,
    ∃ n v, mkDesc n v = .ok p.desc := by
  induction ps with
  | nil => intro r h; simp only [groupPackages, Except.ok.injEq] at h; subst h; simp
  | cons x ps ih =>
    intro r h p hp
    obtain ⟨n, v⟩ := x
    simp only [groupPackages] at h
    cases hd : projectDesc n v with
    | error e => rw [hd] at h; simp at h
    | ok d =>
      rw [hd] at h
      simp only at h
      cases hg : groupPackages ps with
      | error e => rw [hg] at h; simp at h
      | ok q =>
        rw [hg] at h
        simp only [Except.ok.injEq] at h; subst h
        rcases List.mem_cons.1 hp with rfl | hp
        · unfold projectDesc at hd
          split at hd
          · simp at hd
          · exact ⟨_, _, hd⟩
        · exact ih q hg p hp

theorem groupPackages_project (ps : List (Text × Ver)) : ∀ r, groupPackages ps = .ok r → ∀ p ∈ r,
    ∃ dsc, p = FPkg.project dsc := by
  induction ps with
  | nil => intro r h; simp only [groupPackages, Except.ok.injEq] at h; subst h; simp
  | cons x ps ih =>
    intro r h p hp
    obtain ⟨n, v⟩ := x
    simp only [groupPackages] at h
    cases hd : projectDesc n v with
    | error e => rw [hd] at h; simp at h
    | ok d =>
      rw [hd] at h
      simp only at h
      cases hg : groupPackages ps with
      | error e => rw [hg] at h; simp at h
      | ok q =>
        rw [hg] at h
        simp only [Except.ok.injEq] at h; subst h
        rcases List.mem_cons.1 hp with rfl | hp
        · exact ⟨_, rfl⟩
        · exact ih q hg p hp

theorem loadProject_project (env : UrlEnv) (d : Dir) (q : FPkg) (h : loadProject env d = .ok q) :
    ∃ dsc, q = FPkg.project dsc := by
  unfold loadProject at h
  split at h
  · simp at h
  · rename_i dsc _
    simp only [Except.ok.injEq] at h
    exact ⟨dsc, h.symm⟩

/-- C72: the package of a project can tell its dependencies: those it declares that apply to the environment, in their order and
as often as declared. -/
theorem project_package_dependencies {D : Type} (env : UrlEnv) (declared : Desc → List D) (applicable : D → Bool) (d : Dir) (p : FPkg)
    (h : loadProject env d = .ok p) :
    ∃ ds, dependencies declared applicable p = .ok ds ∧ ds.Sublist (declared p.desc) ∧
      ∀ q : D → Bool, ds.countP q = (declared p.desc).countP (fun x => q x && applicable x) := by
  obtain ⟨dsc, rfl⟩ := loadProject_project env d p h
  refine ⟨_, rfl, List.filter_sublist, fun q => ?_⟩
  rw [List.countP_filter]
  rfl

example (env : UrlEnv) (v : Ver) : ∃ p, loadProject env ⟨t!"here", [], some (t!"demo", v), none⟩ = .ok p ∧
    dependencies (fun _ => [1, 2, 3, 2]) (fun x => x % 2 == 0) p = .ok [2, 2] := ⟨_, rfl, rfl⟩

theorem fromDistName_desc (env : UrlEnv) (f : Text) (d : Desc) (h : fromDistName env f = .ok d) :
    ∃ n v, mkDesc n v = .ok d := by
  unfold fromDistName at h
  split at h
  · exact ⟨_, _, h⟩
  · simp at h

theorem packageFrom_desc (env : UrlEnv) (f : Text) (p : FPkg) (h : packageFrom env f none = .ok p) :
    fromDistName env f = .ok p.desc := by
  simp only [packageFrom] at h
  cases hf : fromDistName env f with
  | error e => rw [hf] at h; simp at h
  | ok d =>
    rw [hf] at h
    simp only at h
    split at h <;> simp only [Except.ok.injEq] at h <;> subst h <;> rfl

theorem dirDists_mem (env : UrlEnv) (es : List Entry) : ∀ r, dirDists env es = .ok r → ∀ p ∈ r,
    ∃ e ∈ es, isDistribution e = true ∧ packageFrom env e.name none = .ok p := by
  induction es with
  | nil => intro r h; simp only [dirDists, Except.ok.injEq] at h; subst h; simp
  | cons e es ih =>
    intro r h p hp
    simp only [dirDists] at h
    split at h
    · rename_i hd
      cases hf : packageFrom env e.name none with
      | error x => rw [hf] at h; simp at h
      | ok q =>
        rw [hf] at h
        simp only at h
        cases hr : dirDists env es with
        | error x => rw [hr] at h; simp at h
        | ok qs =>
          rw [hr] at h
          simp only [Except.ok.injEq] at h; subst h
          rcases List.mem_cons.1 hp with rfl | hp
          · exact ⟨e, List.mem_cons_self .., hd, hf⟩
          · obtain ⟨e', h1, h2⟩ := ih qs hr p hp
            exact ⟨e', List.mem_cons_of_mem _ h1, h2⟩
    · obtain ⟨e', h1, h2⟩ := ih r h p hp
      exact ⟨e', List.mem_cons_of_mem _ h1, h2⟩

/-- C72: every wheel and every source distribution of the directory is in the repository, and everything in the
repository is one of them or a project. -/
theorem directory_packages (env : UrlEnv) (d : Dir) (ps : List FPkg) (h : allPackages env d = .ok ps) :
    (∀ e ∈ d.entries, e.isDir = false → (t!".whl" <:+ e.name ∨ t!".tar.gz" <:+ e.name) →
      ∃ p ∈ ps, fromDistName env e.name = .ok p.desc) ∧
    (∀ p ∈ ps, (∃ dsc, p = .project dsc) ∨ ∃ e ∈ d.entries, e.isDir = false ∧
      (t!".whl" <:+ e.name ∨ t!".tar.gz" <:+ e.name) ∧ fromDistName env e.name = .ok p.desc) := by
  have isd : ∀ e : Entry, isDistribution e = true ↔ e.isDir = false ∧ (t!".whl" <:+ e.name ∨ t!".tar.gz" <:+ e.name) := by
    intro e
    simp only [isDistribution, endswithAny, Bool.and_eq_true, Bool.not_eq_true', List.find?_isSome, List.mem_cons,
      List.not_mem_nil, or_false, List.isSuffixOf_iff_suffix]
    constructor
    · rintro ⟨h1, sf, rfl | rfl, h2⟩
      · exact ⟨h1, Or.inr h2⟩
      · exact ⟨h1, Or.inl h2⟩
    · rintro ⟨h1, h2 | h2⟩
      · exact ⟨h1, _, Or.inr rfl, h2⟩
      · exact ⟨h1, _, Or.inl rfl, h2⟩
  simp only [allPackages] at h
  cases hp : dirProjects env d with
  | error e => rw [hp] at h; simp at h
  | ok qs =>
    rw [hp] at h
    simp only at h
    cases hd : dirDists env d.entries with
    | error e => rw [hd] at h; simp at h
    | ok ds =>
      rw [hd] at h
      simp only [Except.ok.injEq] at h; subst h
      constructor
      · intro e he h1 h2
        have hall : ∀ (es : List Entry) r, dirDists env es = .ok r → e ∈ es → ∃ p ∈ r, packageFrom env e.name none = .ok p := by
          intro es
          induction es with
          | nil => intro r _ hx; simp at hx
          | cons x es ih =>
            intro r hr hx
            simp only [dirDists] at hr
            split at hr
            · cases hf : packageFrom env x.name none with
              | error y => rw [hf] at hr; simp at hr
              | ok q =>
                rw [hf] at hr
                simp only at hr
                cases hr2 : dirDists env es with
                | error y => rw [hr2] at hr; simp at hr
                | ok qs2 =>
                  rw [hr2] at hr
                  simp only [Except.ok.injEq] at hr; subst hr
                  rcases List.mem_cons.1 hx with rfl | hx
                  · exact ⟨q, List.mem_cons_self .., hf⟩
                  · obtain ⟨p, hp1, hp2⟩ := ih qs2 hr2 hx
                    exact ⟨p, List.mem_cons_of_mem _ hp1, hp2⟩
            · rename_i hnd
              rcases List.mem_cons.1 hx with rfl | hx
              · exact absurd ((isd e).2 ⟨h1, h2⟩) hnd
              · exact ih r hr hx
        obtain ⟨p, hp1, hp2⟩ := hall d.entries ds hd he
        exact ⟨p, List.mem_append_right _ hp1, packageFrom_desc env _ p hp2⟩
      · intro p hpm
        rcases List.mem_append.1 hpm with hpm | hpm
        · left
          unfold dirProjects at hp
          cases hg : d.group with
          | some g =>
            rw [hg] at hp
            simp only at hp
            exact groupPackages_project g qs hp p hpm
          | none =>
            rw [hg] at hp
            simp only at hp
            cases hl : loadProject env d with
            | error e => rw [hl] at hp; simp at hp
            | ok q =>
              rw [hl] at hp
              simp only [Except.ok.injEq] at hp; subst hp
              simp only [List.mem_singleton] at hpm; subst hpm
              exact loadProject_project env d _ hl
        · right
          obtain ⟨e, h1, h2, h3⟩ := dirDists_mem env _ ds hd p hpm
          have := (isd e).1 h2
          exact ⟨e, h1, this.1, this.2, packageFrom_desc env _ p h3⟩

theorem mkDesc_no_underscore (n : Text) (v : Ver) (d : Desc) (h : mkDesc n v = .ok d) : '_' ∉ d.name := by
  unfold mkDesc at h
  cases hd : descriptorName n with
  | none => rw [hd] at h; simp at h
  | some r =>
    rw [hd] at h
    simp only [Except.ok.injEq] at h; subst h
    simp only
    unfold descriptorName at hd
    split at hd
    · simp at hd
    · simp only [Option.map_eq_some_iff] at hd
      obtain ⟨m, _, rfl⟩ := hd
      intro hm
      simp only [replaceChar, List.mem_map] at hm
      obtain ⟨c, _, hc⟩ := hm
      split at hc
      · simp at hc
      · rename_i hne; exact hne hc

/-- C72 fails: a requirement that writes the name with an underscore is never answered, whatever the directory
contains, also if it is the way the file is named. -/
theorem directory_underscore_violated (env : UrlEnv) (d : Dir) (repo : Dict Text (List FPkg)) (dep : Text)
    (spec : VSpec) (hb : build env d = .ok repo) (hu : '_' ∈ dep) : dictMatch repo dep spec = [] := by
  have ha : ∃ ps, allPackages env d = .ok ps := by
    unfold build at hb
    cases ha : allPackages env d with
    | error e => rw [ha] at hb; simp at hb
    | ok ps => exact ⟨ps, rfl⟩
  obtain ⟨ps, ha⟩ := ha
  apply List.eq_nil_iff_forall_not_mem.2
  intro p hp
  obtain ⟨h1, h2, _⟩ := (directory_answer env d repo ps dep spec hb ha p).1 hp
  have hdesc : ∃ n v, mkDesc n v = .ok p.desc := by
    simp only [allPackages] at ha
    cases hp' : dirProjects env d with
    | error e => rw [hp'] at ha; simp at ha
    | ok qs =>
      rw [hp'] at ha
      simp only at ha
      cases hd : dirDists env d.entries with
      | error e => rw [hd] at ha; simp at ha
      | ok ds =>
        rw [hd] at ha
        simp only [Except.ok.injEq] at ha; subst ha
        rcases List.mem_append.1 h1 with hm | hm
        · unfold dirProjects at hp'
          cases hg : d.group with
          | some g => rw [hg] at hp'; exact groupPackages_desc g qs hp' p hm
          | none =>
            rw [hg] at hp'
            simp only at hp'
            cases hl : loadProject env d with
            | error e => rw [hl] at hp'; simp at hp'
            | ok q =>
              rw [hl] at hp'
              simp only [Except.ok.injEq] at hp'; subst hp'
              simp only [List.mem_singleton] at hm; subst hm
              unfold loadProject at hl
              have hpd : ∀ n v x, projectDesc n v = .ok x → ∃ n' v', mkDesc n' v' = .ok x := by
                intro n v x hx
                unfold projectDesc at hx
                split at hx
                · simp at hx
                · exact ⟨_, _, hx⟩
              cases hpr : d.project with
              | some nv =>
                rw [hpr] at hl
                obtain ⟨n, v⟩ := nv
                simp only at hl
                cases hx : projectDesc n v with
                | error e => rw [hx] at hl; simp at hl
                | ok x =>
                  rw [hx] at hl
                  simp only [Except.ok.injEq] at hl; subst hl
                  exact hpd n v x hx
              | none =>
                rw [hpr] at hl
                simp only at hl
                cases hx : projectDesc d.name (parseVersion env t!"unknown_version") with
                | error e => rw [hx] at hl; simp at hl
                | ok x =>
                  rw [hx] at hl
                  simp only [Except.ok.injEq] at hl; subst hl
                  exact hpd _ _ x hx
        · obtain ⟨e, _, _, h3⟩ := dirDists_mem env _ ds hd p hm
          exact fromDistName_desc env e.name _ (packageFrom_desc env _ p h3)
  obtain ⟨n, v, hm⟩ := hdesc
  exact mkDesc_no_underscore n v _ hm (h2 ▸ hu)

/-- A directory with one wheel and nothing else. -/
def wheelDir : Dir := ⟨t!"wheels", [⟨t!"My_Pkg-1.0-py3-none-any.whl", false⟩], none, none⟩

example (env : UrlEnv) : ∃ repo, build env wheelDir = .ok repo ∧
    (dictMatch repo t!"My-Pkg" .all).map (·.desc) = [⟨t!"My-Pkg", .std { release := [1, 0] }⟩] ∧
    dictMatch repo t!"My_Pkg" .all = [] ∧ dictMatch repo t!"my-pkg" .all = [] := ⟨_, rfl, rfl, rfl, rfl⟩

/-- C72 fails: a directory that is no project offers a project all the same: one with the name of the directory and
a version that nobody gave it. -/
theorem directory_bogus_project_violated (env : UrlEnv) (d : Dir) (repo : Dict Text (List FPkg)) (n m : Text)
    (hp : d.project = none) (hg : d.group = none) (hm : normalizeName d.name = some m) (hn : descriptorName m = some n)
    (hb : build env d = .ok repo) :
    FPkg.project ⟨n, .named t!"unknown_version"⟩ ∈ dictMatch repo n .all := by
  have ha : ∃ ps, allPackages env d = .ok ps ∧ FPkg.project ⟨n, .named t!"unknown_version"⟩ ∈ ps := by
    unfold build at hb
    cases ha : allPackages env d with
    | error e => rw [ha] at hb; simp at hb
    | ok ps =>
      refine ⟨ps, rfl, ?_⟩
      have hv : parseVersion env t!"unknown_version" = .named t!"unknown_version" := rfl
      simp only [allPackages, dirProjects, hg, loadProject, hp, projectDesc, hm, mkDesc, hn, hv] at ha
      cases hd : dirDists env d.entries with
      | error e => rw [hd] at ha; simp at ha
      | ok ds =>
        rw [hd] at ha
        simp only [Except.ok.injEq] at ha; subst ha
        simp
  obtain ⟨ps, h1, h2⟩ := ha
  exact (directory_answer env d repo ps n .all hb h1 _).2 ⟨h2, rfl, rfl⟩

example (env : UrlEnv) : ∃ repo, build env wheelDir = .ok repo ∧
    dictMatch repo t!"wheels" .all = [.project ⟨t!"wheels", .named t!"unknown_version"⟩] := ⟨_, rfl, rfl⟩

/-- C72 fails: the name in `name @ file:///..` is not compared with what is found there. -/
theorem file_url_name_violated (env : UrlEnv) (a b : Text) (url : Option Location) :
    fileMatch env a url = fileMatch env b url := rfl

/-- C72: what a file url gives: the package of the file. -/
theorem file_url_answer (env : UrlEnv) (dep f : Text) (d : Desc) (h : t!".whl" <:+ f ∨ t!".tar.gz" <:+ f)
    (hd : fromDistName env f = .ok d) : ∃ p, fileMatch env dep (some (.file f)) = .ok [p] ∧ p.desc = d := by
  have hs : (endswithAny f [t!".tar.gz", t!".whl"]).isSome = true := by
    simp only [endswithAny, List.find?_isSome, List.mem_cons, List.not_mem_nil, or_false, List.isSuffixOf_iff_suffix]
    rcases h with h | h
    · exact ⟨_, Or.inr rfl, h⟩
    · exact ⟨_, Or.inl rfl, h⟩
  simp only [fileMatch, hs, if_true, packageFrom, hd]
  by_cases hw : (t!".whl".isSuffixOf f) = true
  · simp only [hw, if_true]; exact ⟨_, rfl, rfl⟩
  · simp only [hw]; exact ⟨_, rfl, rfl⟩

end DistFiles
end Pkm
