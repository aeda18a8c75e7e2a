import Verif.Install.Uninstall
import Verif.Install.Planning
set_option linter.unusedVariables false
set_option linter.unusedSimpArgs false
set_option linter.unusedSectionVars false
/-
C106: installing, with and without updates, leaves what is installed in its version unless it is to be updated, and updates that. This joins the models of
the resolver, with pkm's own versions and specifiers (Resolver), of names (Names), of planning and of plans (Install), as package_installation.py ("pi")
95-111, 125-196 and 414-451 do.
-/
namespace Pkm
open Solver Resolver Install Uninstall

variable {D : Type} [DecidableEq D]

namespace Updating

/-- A repository as the resolver asks it (repository.py 18-46): all packages of a name, the single package of a URL, and whether there is a version. -/
structure Source where
  list : Text → List (Obj Ver VSpec)
  matchUrl : Text → Ver → Option (Obj Ver VSpec)
  matchVersion : Text → Option (List Text) → Ver → Bool

/-- `InstalledPackage` as the resolver sees it (site_packages.py 156-161, 181-187). -/
def installedObj (p : Placed D) : Obj Ver VSpec where
  name := p.name
  version := p.inst.version
  compatible := p.compatible
  dependencies x := some (p.deps.filter (fun d => d.applies x))

/-- `max(packages, key=lambda it: it.version)`: the first one that no later one exceeds. -/
def maxObj : List (Obj Ver VSpec) → Obj Ver VSpec → Obj Ver VSpec
  | [], best => best
  | o :: os, best => maxObj os (if best.version.lt o.version then o else best)

/-- The packages of the newest minor release (pi 443-450). For an empty list the code raises `ValueError`; here nothing is offered. -/
def latestOf : List (Obj Ver VSpec) → List (Obj Ver VSpec)
  | [] => []
  | o :: os =>
    match latestLimit (maxObj os o).version with
    | .error _ => []
    | .ok limit => (o :: os).filter (fun q => limit.allows q.version)

/-- `_InstallationRepository.match` (pi 427-451) for a name, all versions. -/
def offeredBy (pre : List (Placed D)) (repo : Source) (requests : List (RDep VSpec)) (unspecified : List Text) (fast : Bool) (name : Text) :
    List (Obj Ver VSpec) :=
  if packageNameKey name = some requestKey then [requestPackage requests]
  else
    match installedPackage pre name with
    | some p =>
      if fast then [installedObj p]
      else sortBy (fun a b => decide ((if p.inst.version.eqv a.version then 0 else 1) ≤ (if p.inst.version.eqv b.version then 0 else 1))) (repo.list name)
    | none => if fast && unspecified.contains ((packageNameKey name).getD []) then latestOf (repo.list name) else repo.list name

/-- What the resolver is given (pi 168-173, 186-190). `match` with a version or URL answers for the request and, on the fast path, for installed packages
without looking at it. -/
def installing (pre : List (Placed D)) (repo : Source) (requests : List (RDep VSpec)) (unspecified : List Text) (fast : Bool) : Setting Ver VSpec where
  list := offeredBy pre repo requests unspecified fast
  matchUrl n v :=
    if packageNameKey n = some requestKey then some (requestPackage requests)
    else match installedPackage pre n with
      | some p => if fast then some (installedObj p) else repo.matchUrl n v
      | none => repo.matchUrl n v
  matchVersion n x v :=
    if packageNameKey n = some requestKey then true
    else match installedPackage pre n with
      | some _ => if fast then true else repo.matchVersion n x v
      | none => repo.matchVersion n x v
  root := { name := requestName, spec := .vmatch requestVersion true }
  overrides := []
  isStandard := Ver.isStd
  isUrl v := match v with | .url _ _ _ => true | _ => false
  eqv := Ver.eqv

/-- The packages that are returned, as the plan distinguishes them. -/
def toPlan (pre : List (Placed D)) (fast : Bool) (o : Obj Ver VSpec) : Pkg D :=
  let key := (packageNameKey o.name).getD []
  if key = requestKey then .userRequest
  else if fast then
    match installedPackage pre o.name with
    | some p => .installed p.inst
    | none => .repo key o.version
  else .repo key o.version

/-- `resolve_dependencies(user_request.to_dependency(), self, installation_repo)`. -/
def resolved (dep : D → RDep VSpec) (ch : Choices RPkg VSpec) (fuel : Nat) (pre : List (Placed D)) (repo : Source) (unspecified : List Text) (fast : Bool)
    (requests : List D) : Except PErr (List (Pkg D)) :=
  match resolve specifiers (installing pre repo (requests.map dep) unspecified fast) ch fuel with
  | .ok out => .ok (out.map (toPlan pre fast))
  | .error (.solver .unsolvable) => .error .unsolvable
  | .error _ => .error .valueError

/-- `package_name_key` of a dependency. -/
def keyOf (dep : D → RDep VSpec) (d : D) : Text := (packageNameKey (dep d).name).getD []

/-- `version_spec is AllowAllVersions` of a dependency. -/
def isAll (dep : D → RDep VSpec) (d : D) : Bool := match (dep d).spec with | .all => true | _ => false

/-- `install` (pi 95-111) in a site: plan and execute. `none`: an exception. -/
def installInto (dep : D → RDep VSpec) (ch : Choices RPkg VSpec) (fuel : Nat) (auto : Text → StoreMode) (site : List (Placed D)) (repo : Source)
    (deps : List D) (userRequested : Bool) (storeModes : Dict Text StoreMode) (updates : List Text) : Option (Dict Text (Inst D)) :=
  let pre := site.filter (fun p => !updates.contains p.inst.key)
  let unspecified := (deps.filter (isAll dep)).map (keyOf dep)
  match planInstallation ⟨keyOf dep, isAll dep⟩ (fun _ rs => resolved dep ch fuel pre repo unspecified true rs)
      (fun _ rs => resolved dep ch fuel pre repo unspecified false rs) (fun _ => []) (site.map (·.inst)) deps userRequested updates [] with
  | .error _ => none
  | .ok plan =>
    let plan := { plan with storeModes := storeModes }
    runTasks auto plan (tasks plan (site.map (·.inst))) (dictBy Inst.key (site.map (·.inst)))

/-- What the command line and the controllers give as `updates` (main.py 195, main2.py 280, self_controller.py 29 and 40, package_containers.py 167) and
`store_mode` (main.py 196, main2.py 281, self_controller.py 28, package_containers.py 166): by the names as they are written. -/
def updatesOf (dep : D → RDep VSpec) (deps : List D) : List Text := deps.map (fun d => (dep d).name)
def storeModesOf (dep : D → RDep VSpec) (mode : StoreMode) (deps : List D) : Dict Text StoreMode :=
  deps.foldl (fun m d => m.put (dep d).name mode) []

end Updating
open Updating

namespace Spec

/-- A site whose packages have different names, which are valid and not that of the request. -/
structure ValidSite (site : List (Placed D)) : Prop where
  keys : (site.map (fun p => p.inst.key)).Nodup
  named : ∀ p ∈ site, packageNameKey p.name = some p.inst.key ∧ p.inst.key ≠ requestKey

/-- The first attempt of `install`, to add packages only, succeeds with these packages. -/
def Added (dep : D → RDep VSpec) (ch : Choices RPkg VSpec) (fuel : Nat) (site : List (Placed D)) (repo : Source) (deps : List D) (updates : List Text)
    (out : List (Obj Ver VSpec)) : Prop :=
  resolve specifiers (installing (site.filter (fun p => !updates.contains p.inst.key)) repo ((Dict.values (dictBy (keyOf dep) deps)).map dep)
    ((deps.filter (isAll dep)).map (keyOf dep)) true) ch fuel = .ok out

/-- The version is that of an offered package and of the newest minor release: at least the first two components of a version that none exceeds. -/
def NewestMinor (l : List (Obj Ver VSpec)) (v : Ver) : Prop :=
  (∃ o ∈ l, o.version = v) ∧ ∃ m ∈ l, ∃ w, m.version = .std w ∧ (∀ q ∈ l, m.version.lt q.version = false) ∧
    ((Ver.std { w with release := w.release.take 2 }).eqv v = true ∨ (Ver.std { w with release := w.release.take 2 }).lt v = true)

end Spec
open Spec

namespace Updating

theorem max_eq (k : Text) : ∀ (os : List (Obj Ver VSpec)) (o : Obj Ver VSpec),
    maxLoop (os.map (fun q => (Pkg.repo k q.version : Pkg Unit))) (.repo k o.version) = .repo k (maxObj os o).version := by
  intro os
  induction os with
  | nil => intro o; rfl
  | cons q os ih =>
    intro o
    cases h : o.version.lt q.version
    · have e : maxLoop ((q :: os).map (fun q => (Pkg.repo k q.version : Pkg Unit))) (.repo k o.version) =
          maxLoop (os.map (fun q => (Pkg.repo k q.version : Pkg Unit))) (.repo k o.version) := by
        simp [maxLoop, Pkg.version, h]
      rw [e, ih o]; simp [maxObj, h]
    · have e : maxLoop ((q :: os).map (fun q => (Pkg.repo k q.version : Pkg Unit))) (.repo k o.version) =
          maxLoop (os.map (fun q => (Pkg.repo k q.version : Pkg Unit))) (.repo k q.version) := by
        simp [maxLoop, Pkg.version, h]
      rw [e, ih q]; simp [maxObj, h]

theorem maxObj_mem : ∀ (os : List (Obj Ver VSpec)) (o : Obj Ver VSpec), maxObj os o ∈ o :: os := by
  intro os
  induction os with
  | nil => intro o; simp [maxObj]
  | cons q os ih =>
    intro o
    unfold maxObj
    split
    · exact List.mem_cons_of_mem _ (ih q)
    · rcases List.mem_cons.1 (ih o) with h | h
      · rw [h]; exact List.mem_cons_self
      · exact List.mem_cons_of_mem _ (List.mem_cons_of_mem _ h)

theorem maxObj_max (os : List (Obj Ver VSpec)) (o q : Obj Ver VSpec) (hq : q ∈ o :: os) : (maxObj os o).version.lt q.version = false := by
  have := maxLoop_max (os.map (fun q => (Pkg.repo [] q.version : Pkg Unit))) (.repo [] o.version) (.repo [] q.version) (by
    rcases List.mem_cons.1 hq with rfl | hq
    · exact List.mem_cons_self
    · exact List.mem_cons_of_mem _ (List.mem_map.2 ⟨q, hq, rfl⟩))
  rw [max_eq] at this
  exact this

theorem latestOf_newest {l : List (Obj Ver VSpec)} (hstd : ∀ o ∈ l, o.version.isStd = true) {o : Obj Ver VSpec} (h : o ∈ latestOf l) :
    NewestMinor l o.version := by
  cases l with
  | nil => cases h
  | cons x xs =>
    simp only [latestOf] at h
    have hm := maxObj_mem xs x
    have hmax := maxObj_max xs x
    generalize maxObj xs x = m at *
    cases hv : m.version with
    | std w =>
      rw [hv] at h
      have hl : latestLimit (.std w) = .ok (.range (some w.withoutPatch) Option.none true false) := rfl
      rw [hl] at h
      obtain ⟨h1, h2⟩ := List.mem_filter.1 h
      refine ⟨⟨o, h1, rfl⟩, m, hm, w, hv, hmax, ?_⟩
      rw [withoutPatch_eq] at h2
      simp only [VSpec.allows, VSpec.rangeAllows, VSpec.endEq] at h2
      split at h2
      · rename_i h; left; simpa using h
      · split at h2
        · simp at h2
        · right; simpa using h2
    | named n => have := hstd m hm; rw [hv] at this; cases this
    | url u a b => have := hstd m hm; rw [hv] at this; cases this

/-- The plan of the first attempt. -/
theorem added_plan {dep : D → RDep VSpec} {ch : Choices RPkg VSpec} {fuel : Nat} {site : List (Placed D)} {repo : Source} {deps : List D} {updates : List Text}
    {out : List (Obj Ver VSpec)} (ha : Added dep ch fuel site repo deps updates out) (auto : Text → StoreMode) (userRequested : Bool)
    (storeModes : Dict Text StoreMode) :
    ∃ (plan : Plan D) (front : List (Pkg D)),
      installInto dep ch fuel auto site repo deps userRequested storeModes updates =
        runTasks auto plan (tasks plan (site.map (·.inst))) (dictBy Inst.key (site.map (·.inst))) ∧
      front = out.map (toPlan (site.filter (fun p => !updates.contains p.inst.key)) true) ∧
      plan.packages = front ++ (((site.map (fun p : Placed D => p.inst)).filter (fun p : Inst D => !updates.contains p.key)).filter
        (fun i : Inst D => !(front.map Pkg.key).contains i.key)).map Pkg.installed ∧
      plan.storeModes = storeModes := by
  unfold Added at ha
  have hr : resolved dep ch fuel (site.filter (fun p => !updates.contains p.inst.key)) repo ((deps.filter (isAll dep)).map (keyOf dep)) true
      (Dict.values (dictBy (keyOf dep) deps)) = .ok (out.map (toPlan (site.filter (fun p => !updates.contains p.inst.key)) true)) := by
    unfold resolved
    rw [ha]
  refine ⟨⟨_, if userRequested then merge (preRequested ((site.map (·.inst)).filter (fun p => !updates.contains p.key))) (dictBy (keyOf dep) deps)
    else preRequested ((site.map (·.inst)).filter (fun p => !updates.contains p.key)), storeModes⟩, _, ?_, rfl, rfl, rfl⟩
  · unfold installInto planInstallation
    simp only [hr]

theorem mem_pre {site : List (Placed D)} {updates : List Text} {p : Placed D} :
    p ∈ site.filter (fun p => !updates.contains p.inst.key) ↔ p ∈ site ∧ p.inst.key ∉ updates := by
  simp [List.mem_filter]

theorem valid_pre {site : List (Placed D)} (hs : ValidSite site) (updates : List Text) : ValidSite (site.filter (fun p => !updates.contains p.inst.key)) :=
  ⟨hs.keys.sublist (List.Sublist.map _ List.filter_sublist), fun p hp => hs.named p (mem_pre.1 hp).1⟩

theorem key_nonempty (n : Text) : packageNameKey n ≠ some [] := by
  intro h
  unfold packageNameKey srcPackageName normalizeName at h
  dsimp only at h
  split at h
  · simp at h
  · rename_i hr
    simp [lower] at h
    simp [h] at hr

/-- The planned packages of an installed name. -/
theorem toPlan_installed {pre : List (Placed D)} (hs : ValidSite pre) {o : Obj Ver VSpec} {p : Placed D} (hp : p ∈ pre)
    (hk : (toPlan pre true o).key = p.inst.key) (hu : (toPlan pre true o).isUserRequest = false) : toPlan pre true o = .installed p.inst := by
  unfold toPlan at *
  dsimp only at *
  split at hk
  · exact absurd hk.symm (hs.named p hp).2
  · rename_i hne
    simp only [if_true] at hk hu ⊢
    rw [if_neg hne]
    cases hi : installedPackage pre o.name with
    | some q =>
      simp only [hi] at hk
      have := EndToEnd.nodup_map_inj hs.keys (installedPackage_some hi).1 hp hk
      rw [this]
    | none =>
      simp only [hi] at hk
      have hk' : (packageNameKey o.name).getD [] = p.inst.key := hk
      cases hn : packageNameKey o.name with
      | none =>
        rw [hn] at hk'
        have h1 := (hs.named p hp).1
        simp only [Option.getD_none] at hk'
        rw [← hk'] at h1
        exact absurd h1 (key_nonempty _)
      | some k =>
        rw [hn] at hk'
        simp only [Option.getD_some] at hk'
        unfold installedPackage at hi
        rw [hn, hk'] at hi
        simp only at hi
        rw [find_key hs.keys hp] at hi
        cases hi

/-- Installed packages in the plan are those of the site. -/
theorem plan_installed {site : List (Placed D)} (hs : ValidSite site) {updates : List Text} {out : List (Obj Ver VSpec)} {plan : Plan D} {front : List (Pkg D)}
    (hf : front = out.map (toPlan (site.filter (fun p => !updates.contains p.inst.key)) true))
    (hp : plan.packages = front ++ (((site.map (fun p : Placed D => p.inst)).filter (fun p : Inst D => !updates.contains p.key)).filter
        (fun i : Inst D => !(front.map Pkg.key).contains i.key)).map Pkg.installed) :
    ∀ i, Pkg.installed i ∈ plan.packages → (dictBy Inst.key (site.map (·.inst))).get i.key = some i := by
  have hk : ((site.map (·.inst)).map Inst.key).Nodup := by rw [List.map_map]; exact hs.keys
  intro i hi
  apply dictBy_get_nodup _ _ hk
  rw [hp] at hi
  rcases List.mem_append.1 hi with hi | hi
  · rw [hf] at hi
    obtain ⟨o, -, ho⟩ := List.mem_map.1 hi
    unfold toPlan at ho
    dsimp only at ho
    split at ho
    · cases ho
    · simp only [if_true] at ho
      split at ho
      · rename_i p hp
        simp only [Pkg.installed.injEq] at ho
        subst ho
        exact List.mem_map.2 ⟨p, (mem_pre.1 (installedPackage_some hp).1).1, rfl⟩
      · cases ho
  · obtain ⟨j, hj, e⟩ := List.mem_map.1 hi
    simp only [Pkg.installed.injEq] at e
    subst e
    exact (List.mem_filter.1 (List.mem_filter.1 hj).1).1

/-- Installed packages that are not to be updated are planned as they are. -/
theorem plan_keeps {site : List (Placed D)} (hs : ValidSite site) {updates : List Text} {out : List (Obj Ver VSpec)} {plan : Plan D} {front : List (Pkg D)}
    (hf : front = out.map (toPlan (site.filter (fun p => !updates.contains p.inst.key)) true))
    (hp : plan.packages = front ++ (((site.map (fun p : Placed D => p.inst)).filter (fun p : Inst D => !updates.contains p.key)).filter
        (fun i : Inst D => !(front.map Pkg.key).contains i.key)).map Pkg.installed)
    {p : Placed D} (hm : p ∈ site) (hu : p.inst.key ∉ updates) : planned plan.packages p.inst.key = some (.installed p.inst) := by
  have hpre := mem_pre.2 ⟨hm, hu⟩
  have hall : ∀ q ∈ plan.packages, q.key = p.inst.key → q.isUserRequest = false → q = .installed p.inst := by
    intro q hq hk hr
    rw [hp] at hq
    rcases List.mem_append.1 hq with hq | hq
    · rw [hf] at hq
      obtain ⟨o, -, rfl⟩ := List.mem_map.1 hq
      exact toPlan_installed (valid_pre hs updates) hpre hk hr
    · obtain ⟨j, hj, rfl⟩ := List.mem_map.1 hq
      obtain ⟨p', hp', rfl⟩ := List.mem_map.1 (List.mem_filter.1 (List.mem_filter.1 hj).1).1
      rw [EndToEnd.nodup_map_inj hs.keys hp' hm hk]
  refine planned_of_all _ _ _ ?_ rfl rfl hall
  by_cases hc : p.inst.key ∈ front.map Pkg.key
  · obtain ⟨q, hq, hk⟩ := List.mem_map.1 hc
    have hq' : q ∈ plan.packages := by rw [hp]; exact List.mem_append_left _ hq
    cases hr : q.isUserRequest with
    | false => rw [← hall q hq' hk hr]; exact hq'
    | true =>
      cases q with
      | userRequest => exact absurd hk.symm (hs.named p hm).2
      | installed j => cases hr
      | repo a b => cases hr
  · rw [hp]
    refine List.mem_append_right _ (List.mem_map.2 ⟨p.inst, List.mem_filter.2 ⟨List.mem_filter.2 ⟨List.mem_map.2 ⟨p, hm, rfl⟩, by simpa using hu⟩, ?_⟩, rfl⟩)
    simpa using hc

/-- What is found for a name that is not installed, or to be updated, and was asked for without a version. -/
theorem found_latest {pre : List (Placed D)} (hs : ValidSite pre) {repo : Source} {rs : List (RDep VSpec)} {un : List Text} (hurl : ∀ n v, repo.matchUrl n v = none)
    {k : Text} (hk : k ≠ requestKey) (hun : k ∈ un) (hpre : ∀ p ∈ pre, p.inst.key ≠ k) {n : Text} {v : Ver} {o : Obj Ver VSpec}
    (ho : objectOf (installing pre repo rs un true) n v = some o) (hok : packageNameKey o.name = some k) :
    packageNameKey n = some k ∧ o ∈ latestOf (repo.list n) := by
  have hreq : ∀ rs, o ≠ requestPackage rs := by
    rintro rs rfl
    have : packageNameKey requestName = some k := hok
    rw [requestName_key] at this
    simp only [Option.some.injEq] at this
    exact hk this.symm
  have hinst : ∀ p ∈ pre, o ≠ installedObj p := by
    rintro p hp rfl
    have : packageNameKey p.name = some k := hok
    rw [(hs.named p hp).1] at this
    simp only [Option.some.injEq] at this
    exact hpre p hp this
  unfold objectOf at ho
  split at ho
  · simp only [installing] at ho
    split at ho
    · simp only [Option.some.injEq] at ho; exact absurd ho.symm (hreq _)
    · split at ho
      · rename_i p hp
        simp only [if_true, Option.some.injEq] at ho
        exact absurd ho.symm (hinst p (installedPackage_some hp).1)
      · rw [hurl] at ho; cases ho
  · unfold opened at ho
    have h1 := List.find?_some ho
    simp only [Bool.and_eq_true, decide_eq_true_eq] at h1
    have hn : packageNameKey n = some k := by
      rw [← EndToEnd.key_of_descriptor h1.2, EndToEnd.key_lower]; exact hok
    refine ⟨hn, ?_⟩
    have hm := (mem_compatibles (List.mem_reverse.1 (List.mem_of_find?_eq_some ho))).1
    simp only [installing, offeredBy] at hm
    rw [hn] at hm
    simp only [Option.some.injEq, hk, if_false] at hm
    split at hm
    · rename_i p hp
      simp only [if_true, List.mem_singleton] at hm
      exact absurd hm (hinst p (installedPackage_some hp).1)
    · simpa [hun] using hm

/-- What is requested is selected. -/
theorem request_selected {pre : List (Placed D)} {repo : Source} {rs : List (RDep VSpec)} {un : List Text} {ch : Choices RPkg VSpec} {fuel : Nat} {fast : Bool}
    {out : List (Obj Ver VSpec)} (h : resolve specifiers (installing pre repo rs un fast) ch fuel = .ok out) {r : RDep VSpec} (hr : r ∈ rs)
    (ha : r.applies [] = true) : ∃ w o, objectOf (installing pre repo rs un fast) (lower r.name) w = some o ∧ o ∈ out := by
  obtain ⟨sel, -, hout, ⟨v, hv⟩, hcl, -⟩ := resolver_output h
  have hroot : objectOf (installing pre repo rs un fast) (lower requestName) v = some (requestPackage rs) := by
    have : objectOf (installing pre repo rs un fast) (lower requestName) v ∈ out.map some := by
      rw [hout]
      exact List.mem_map.2 ⟨_, List.mem_filter.2 ⟨hv, rfl⟩, rfl⟩
    obtain ⟨o, -, ho⟩ := List.mem_map.1 this
    rw [← ho]
    have ho' := ho.symm
    unfold objectOf at ho'
    split at ho'
    · simp only [installing, EndToEnd.key_lower, requestName_key, if_true] at ho'
      exact ho'.symm ▸ rfl
    · unfold opened at ho'
      have hm := (mem_compatibles (List.mem_reverse.1 (List.mem_of_find?_eq_some ho'))).1
      simp only [installing, offeredBy, EndToEnd.key_lower, requestName_key, if_true, List.mem_singleton] at hm
      rw [hm]
  obtain ⟨w, hw⟩ := hcl _ _ hv ⟨lower r.name, r.extras⟩ r.spec
    (.dependency (requestPackage rs) rs r r hroot rfl hr ha (by simp [Counts, installing, Dict.get]))
  have hbase : ∃ q w, (q, w) ∈ sel ∧ q.hasExtras = false ∧ q.name = lower r.name := by
    cases hx : (⟨lower r.name, r.extras⟩ : RPkg).hasExtras with
    | false => exact ⟨_, w, hw, hx, rfl⟩
    | true =>
      obtain ⟨w', hw'⟩ := hcl _ _ hw _ _ (.base hx)
      exact ⟨_, w', hw', rfl, rfl⟩
  obtain ⟨q, w', hqw, hqx, hqn⟩ := hbase
  have : objectOf (installing pre repo rs un fast) q.name w' ∈ out.map some := by
    rw [hout]
    exact List.mem_map.2 ⟨(q, w'), List.mem_filter.2 ⟨hqw, by simp [hqx]⟩, rfl⟩
  obtain ⟨o, ho, e⟩ := List.mem_map.1 this
  rw [hqn] at e
  exact ⟨w', o, e.symm, ho⟩

end Updating

/-- C106, adding packages: whatever the resolver selects, if the first attempt of `install` succeeds then every installed package that is not listed in
`updates` stays as it is, up to its user request, so that every requirement that such a package met is met afterwards. Missing: packages listed in
`updates` (see `update_breaks_violated`) and the second attempt. -/
theorem install_keeps_partial {dep : D → RDep VSpec} {ch : Choices RPkg VSpec} {fuel : Nat} {site : List (Placed D)} (hs : ValidSite site) {repo : Source}
    {deps : List D} {updates : List Text} {out : List (Obj Ver VSpec)} (ha : Added dep ch fuel site repo deps updates out) (auto : Text → StoreMode)
    (userRequested : Bool) (storeModes : Dict Text StoreMode) :
    ∃ after, installInto dep ch fuel auto site repo deps userRequested storeModes updates = some after ∧
      (∀ p ∈ site, p.inst.key ∉ updates → ∃ r, after.get p.inst.key = some { p.inst with request := r }) ∧
      ∀ (d : RDep VSpec) q, installedPackage site d.name = some q → q.inst.key ∉ updates → d.spec.allows q.inst.version = true →
        ∃ i, packageNameKey d.name = some i.key ∧ after.get i.key = some i ∧ d.spec.allows i.version = true := by
  obtain ⟨plan, front, hi, hf, hp, -⟩ := added_plan ha auto userRequested storeModes
  obtain ⟨after, h1, h2, -⟩ := run_any_order auto plan _ (plan_installed hs hf hp) _ (List.Perm.refl _)
  have hk : ((site.map (·.inst)).map Inst.key).Nodup := by rw [List.map_map]; exact hs.keys
  have key : ∀ p ∈ site, p.inst.key ∉ updates → ∃ r, after.get p.inst.key = some { p.inst with request := r } := by
    intro p hm hu
    have h := h2 _ _ (plan_keeps hs hf hp hm hu)
    rw [dictBy_get_nodup _ _ hk p.inst (List.mem_map.2 ⟨p, hm, rfl⟩)] at h
    simp only [opFor, decideOp] at h
    split at h
    · split at h
      · simp only [effect, Option.some.injEq] at h
        exact ⟨p.inst.request, h.symm⟩
      · split at h
        · simp only [effect, Option.map_some, Option.some.injEq] at h
          exact ⟨_, h.symm⟩
        · simp only [effect, Option.map_some, Option.some.injEq] at h
          exact ⟨_, h.symm⟩
    · simp only [effect, Option.map_some, Option.some.injEq] at h
      exact ⟨_, h.symm⟩
  refine ⟨after, by rw [hi]; exact h1, key, ?_⟩
  intro d q hq hu hv
  obtain ⟨hm, hn⟩ := installedPackage_some hq
  obtain ⟨r, hr⟩ := key q hm hu
  exact ⟨{ q.inst with request := r }, hn, hr, hv⟩

/-- C106, updates: if the first attempt of `install` succeeds then a package that was asked for without a version, and is not installed or is listed in
`updates` under its key, is installed afterwards in the newest minor release that the repository has of it. Missing: repositories with URL packages or
versions that are not standard, and names that are not their keys (see `update_ignored_violated`). -/
theorem update_newest_partial {dep : D → RDep VSpec} {ch : Choices RPkg VSpec} {fuel : Nat} {site : List (Placed D)} (hs : ValidSite site) {repo : Source}
    (hurl : ∀ n v, repo.matchUrl n v = none) (hstd : ∀ n, ∀ o ∈ repo.list n, o.version.isStd = true)
    (hrepo : ∀ a b, packageNameKey a = packageNameKey b → repo.list a = repo.list b)
    {deps : List D} {updates : List Text} {out : List (Obj Ver VSpec)} (ha : Added dep ch fuel site repo deps updates out) (auto : Text → StoreMode)
    (userRequested : Bool) (storeModes : Dict Text StoreMode) {d : D} (hd : d ∈ deps) (hone : ∀ d' ∈ deps, keyOf dep d' = keyOf dep d → d' = d)
    (hall : (dep d).spec = .all) (happ : (dep d).applies [] = true) {k : Text} (hk : packageNameKey (dep d).name = some k) (hreq : k ≠ requestKey)
    (hnew : ∀ p ∈ site, p.inst.key = k → k ∈ updates) :
    ∃ after, installInto dep ch fuel auto site repo deps userRequested storeModes updates = some after ∧
      ∃ i v, after.get k = some i ∧ i.version.eqv v = true ∧ NewestMinor (repo.list (dep d).name) v := by
  obtain ⟨plan, front, hi, hf, hp, -⟩ := added_plan ha auto userRequested storeModes
  obtain ⟨after, h1, h2⟩ := plan_executes auto plan _ (plan_installed hs hf hp) _ (List.Perm.refl _)
  refine ⟨after, by rw [hi]; exact h1, ?_⟩
  have hkd : keyOf dep d = k := by simp [keyOf, hk]
  have hpre : ∀ p ∈ site.filter (fun p => !updates.contains p.inst.key), p.inst.key ≠ k := by
    intro p hm e
    obtain ⟨h3, h4⟩ := mem_pre.1 hm
    exact h4 (e ▸ hnew p h3 e)
  have hun : k ∈ (deps.filter (isAll dep)).map (keyOf dep) := List.mem_map.2 ⟨d, List.mem_filter.2 ⟨hd, by simp [isAll, hall]⟩, hkd⟩
  have hrs : dep d ∈ (Dict.values (dictBy (keyOf dep) deps)).map dep := by
    refine List.mem_map.2 ⟨d, ?_, rfl⟩
    have hg : (dictBy (keyOf dep) deps).get (keyOf dep d) = some d := by
      obtain ⟨d', hd'⟩ := dictBy_get_isSome (keyOf dep) deps d hd
      obtain ⟨e1, e2⟩ := dictBy_get_key _ _ _ _ hd'
      rw [hd', hone d' e2 e1]
    exact List.mem_map.2 ⟨_, Dict.get_mem _ _ _ hg, rfl⟩
  unfold Added at ha
  obtain ⟨w, o, ho, hmo⟩ := request_selected ha hrs happ
  obtain ⟨sel, -, hout, -, -, -⟩ := resolver_output ha
  have good : ∀ o ∈ out, packageNameKey o.name = some k → o ∈ latestOf (repo.list (dep d).name) := by
    intro o hm hn
    obtain ⟨p, v, -, -, hob⟩ := (EndToEnd.mem_out hout o).1 hm
    obtain ⟨e1, e2⟩ := found_latest (valid_pre hs updates) hurl hreq hun hpre hob hn
    rwa [hrepo p.name (dep d).name (by rw [e1, hk])] at e2
  have hko : packageNameKey o.name = some k := by
    unfold objectOf at ho
    split at ho
    · simp only [installing, EndToEnd.key_lower, hk, Option.some.injEq, hreq, if_false, installedPackage_lower] at ho
      split at ho
      · rename_i p hp'
        obtain ⟨h3, h4⟩ := installedPackage_some hp'
        rw [hk] at h4
        simp only [Option.some.injEq] at h4
        exact absurd h4.symm (hpre p h3)
      · rw [hurl] at ho; cases ho
    · unfold opened at ho
      have h3 := List.find?_some ho
      simp only [Bool.and_eq_true, decide_eq_true_eq] at h3
      rw [← EndToEnd.key_lower, EndToEnd.key_of_descriptor h3.2, EndToEnd.key_lower]; exact hk
  have hnone : ∀ o : Obj Ver VSpec, packageNameKey o.name = some k → installedPackage (site.filter (fun p => !updates.contains p.inst.key)) o.name = none := by
    intro o hn
    cases hip : installedPackage (site.filter (fun p => !updates.contains p.inst.key)) o.name with
    | none => rfl
    | some p =>
      obtain ⟨h3, h4⟩ := installedPackage_some hip
      rw [hn] at h4
      simp only [Option.some.injEq] at h4
      exact absurd h4.symm (hpre p h3)
  have hto : ∀ o : Obj Ver VSpec, packageNameKey o.name = some k → toPlan (site.filter (fun p => !updates.contains p.inst.key)) true o = .repo k o.version := by
    intro o hn
    have h3 := hnone o hn
    unfold toPlan
    simp only [hn, Option.getD_some, hreq, if_false, if_true]
    rw [h3]
  have hback : ∀ o : Obj Ver VSpec, (toPlan (site.filter (fun p => !updates.contains p.inst.key)) true o).key = k → packageNameKey o.name = some k := by
    intro o hn
    unfold toPlan at hn
    dsimp only at hn
    split at hn
    · exact absurd hn.symm hreq
    · simp only [if_true] at hn
      split at hn
      · rename_i p hp'
        exact absurd hn (hpre p (installedPackage_some hp').1)
      · have h4 : (packageNameKey o.name).getD [] = k := hn
        cases h5 : packageNameKey o.name with
        | none => rw [h5] at h4; rw [← h4] at hk; exact absurd hk (key_nonempty _)
        | some j => rw [h5] at h4; simp only [Option.getD_some] at h4; rw [h4]
  have hm := h2 k
  cases hpl : planned plan.packages k with
  | none =>
    unfold planned at hpl
    rw [List.getLast?_eq_none_iff, List.filter_eq_nil_iff] at hpl
    refine absurd ?_ (hpl (.repo k o.version) ?_)
    · simp [Pkg.isUserRequest, Pkg.key]
    · rw [hp, hf]
      exact List.mem_append_left _ (List.mem_map.2 ⟨o, hmo, hto o hko⟩)
  | some q =>
    rw [hpl] at hm
    obtain ⟨i, hgi, -, hv, -⟩ := hm
    obtain ⟨hu, hqk, hqm⟩ := planned_facts _ _ _ hpl
    rw [hp] at hqm
    rcases List.mem_append.1 hqm with hqm | hqm
    · rw [hf] at hqm
      obtain ⟨o', ho', rfl⟩ := List.mem_map.1 hqm
      have hn := hback o' hqk
      rw [hto o' hn] at hv
      exact ⟨i, o'.version, hgi, hv, latestOf_newest (hstd _) (good o' ho' hn)⟩
    · obtain ⟨j, hj, rfl⟩ := List.mem_map.1 hqm
      obtain ⟨h3, h4⟩ := List.mem_filter.1 (List.mem_filter.1 hj).1
      obtain ⟨p', hp', rfl⟩ := List.mem_map.1 h3
      exact absurd hqk (hpre p' (mem_pre.2 ⟨hp', by simpa using h4⟩))

/-- C106 fails for the commands: they list the names as they are written. If no such name is a key, as `pkm-cli` in `pkm self update`, then nothing that is
installed is updated: every installed package stays in its version, whatever the repository has. -/
theorem update_ignored_violated {dep : D → RDep VSpec} {ch : Choices RPkg VSpec} {fuel : Nat} {site : List (Placed D)} (hs : ValidSite site) {repo : Source}
    {deps : List D} {out : List (Obj Ver VSpec)} (hdash : ∀ d ∈ deps, packageNameKey (dep d).name ≠ some (dep d).name)
    (ha : Added dep ch fuel site repo deps (updatesOf dep deps) out) (auto : Text → StoreMode) (userRequested : Bool) (storeModes : Dict Text StoreMode) :
    ∃ after, installInto dep ch fuel auto site repo deps userRequested storeModes (updatesOf dep deps) = some after ∧
      ∀ p ∈ site, ∃ r, after.get p.inst.key = some { p.inst with request := r } := by
  obtain ⟨after, h1, h2, -⟩ := install_keeps_partial hs ha auto userRequested storeModes
  refine ⟨after, h1, fun p hp => h2 p hp ?_⟩
  intro hm
  obtain ⟨d, hd, e⟩ := List.mem_map.1 hm
  have h3 := (hs.named p hp).1
  have h4 := hdash d hd
  rw [e] at h4
  exact h4 (name_key_idempotent _ _ h3)

/-! ## Examples -/

namespace UpdatingExample

/-- A repository with these packages, under every spelling of their names. -/
def source (pkgs : List (Text × Ver × List (RDep VSpec))) : Source where
  list n := (pkgs.filter (fun p => decide (packageNameKey p.1 = packageNameKey n))).map (fun p => { name := p.1, version := p.2.1, dependencies := fun _ => some p.2.2 })
  matchUrl _ _ := none
  matchVersion _ _ _ := false

def v (l : List Nat) : Ver := .std { release := l }

/-- x in three versions, p-c in two. -/
def repo : Source := source [(['x'], v [2, 1, 5], []), (['x'], v [2, 1], []), (['x'], v [1], []), (['p', '-', 'c'], v [2], []), (['p', '-', 'c'], v [1], [])]

/-- 0: x, 1: y, 2: p-c, each without a version. -/
def requests (n : Nat) : RDep VSpec := { name := if n = 0 then ['x'] else if n = 1 then ['y'] else ['p', '-', 'c'], spec := .all }

/-- x 1, and y, which the user requested and which requires x below 2; and p-c 1. -/
def site : List (Placed Nat) :=
  [⟨⟨['x'], v [1], .copy, none⟩, ['x'], true, []⟩,
   ⟨⟨['y'], v [1], .copy, some 1⟩, ['y'], true, [{ name := ['x'], spec := ResolverExample.lt 2 }]⟩,
   ⟨⟨['p', '_', 'c'], v [1], .copy, none⟩, ['p', '-', 'c'], true, []⟩]

theorem site_valid : ValidSite site := ⟨by decide, by decide⟩

theorem added (deps : List Nat) (updates : List Text)
    (h : (match resolve specifiers (installing (site.filter (fun p => !updates.contains p.inst.key)) repo ((Dict.values (dictBy (keyOf requests) deps)).map requests)
      ((deps.filter (isAll requests)).map (keyOf requests)) true) UninstallExample.plainChoices 60 with | .ok _ => true | .error _ => false) = true) :
    ∃ out, Added requests UninstallExample.plainChoices 60 site repo deps updates out := by
  unfold Added
  split at h
  · rename_i out ho; exact ⟨out, ho⟩
  · cases h

/-- The hypotheses of the theorems are met, with and without updates. -/
example : (∃ out, Added requests UninstallExample.plainChoices 60 site repo [0] [] out) ∧
    (∃ out, Added requests UninstallExample.plainChoices 60 site repo [0] [['x']] out) ∧
    (∃ out, Added requests UninstallExample.plainChoices 60 site repo [2] (updatesOf requests [2]) out) ∧
    (∀ d ∈ [2], packageNameKey (requests d).name ≠ some (requests d).name) :=
  ⟨added _ _ (by decide +kernel), added _ _ (by decide +kernel), added _ _ (by decide +kernel), by decide⟩

example : (∀ n, ∀ o ∈ repo.list n, o.version.isStd = true) ∧ (∀ a b, packageNameKey a = packageNameKey b → repo.list a = repo.list b) ∧
    (∀ p ∈ site, p.inst.key = ['x'] → ['x'] ∈ [['x']]) := by
  refine ⟨fun n o ho => ?_, fun a b h => by simp [repo, source, h], by decide⟩
  simp only [repo, source, List.mem_map, List.mem_filter] at ho
  obtain ⟨p, ⟨hp, -⟩, rfl⟩ := ho
  simp only [List.mem_cons, List.not_mem_nil, or_false] at hp
  rcases hp with rfl | rfl | rfl | rfl | rfl <;> rfl

def versions (r : Option (Dict Text (Inst Nat))) : Option (List (Text × Ver)) := r.map (·.map (fun e => (e.1, e.2.version)))

example : versions (installInto requests UninstallExample.plainChoices 60 (fun _ => .copy) site repo [0] true [] []) =
    some [(['x'], v [1]), (['y'], v [1]), (['p', '_', 'c'], v [1])] := by decide +kernel

end UpdatingExample

/-- C106 fails for packages that others require: `y`, which the user requested, requires `x` below 2, and `x` is updated to 2.1.5 (`plan_installation`
promises "to not break any pre-installed user-requested packages"). -/
theorem update_breaks_violated :
    UpdatingExample.versions (installInto UpdatingExample.requests UninstallExample.plainChoices 60 (fun _ => .copy) UpdatingExample.site UpdatingExample.repo [0]
      true [] [['x']]) = some [(['x'], UpdatingExample.v [2, 1, 5]), (['y'], UpdatingExample.v [1]), (['p', '_', 'c'], UpdatingExample.v [1])] ∧
    (ResolverExample.lt 2).allows (UpdatingExample.v [1]) = true ∧ (ResolverExample.lt 2).allows (UpdatingExample.v [2, 1, 5]) = false := by
  decide +kernel

/-- C106 fails for store modes in the same way: the commands give them by name, the plan looks for the key. `p-c`, which is not installed, is installed as
a copy although it was asked for as editable; under its key it would be editable. -/
theorem store_mode_ignored_violated :
    ((installInto UpdatingExample.requests UninstallExample.plainChoices 60 (fun _ => .copy) [] UpdatingExample.repo [2] true
      (storeModesOf UpdatingExample.requests .editable [2]) []).map (·.map (fun e => (e.1, e.2.store)))) = some [(['p', '_', 'c'], .copy)] ∧
    ((installInto UpdatingExample.requests UninstallExample.plainChoices 60 (fun _ => .copy) [] UpdatingExample.repo [2] true
      [(['p', '_', 'c'], .editable)] []).map (·.map (fun e => (e.1, e.2.store)))) = some [(['p', '_', 'c'], .editable)] := by
  decide +kernel

end Pkm
