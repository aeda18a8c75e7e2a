import Verif.Install.Updating
set_option linter.unusedVariables false
set_option linter.unusedSimpArgs false
set_option linter.unusedSectionVars false
/-
C108: the second attempt of installing, which may change what is installed (package_installation.py, "pi", 182-196, 414-451): what the site has afterwards,
which requests of the user are kept, and what becomes of overrides. This joins the models of the resolver (Resolver), of planning and of plans (Install).
-/
namespace Pkm
open Solver Resolver Install Uninstall Updating

variable {D : Type} [DecidableEq D]

namespace Reworking

/-- `resolve_dependencies(user_request.to_dependency(), self, installation_repo, dependencies_override)` (pi 172-173). -/
def resolvedOverriding (dep : D → RDep VSpec) (ch : Choices RPkg VSpec) (fuel : Nat) (pre : List (Placed D)) (repo : Source) (unspecified : List Text)
    (overrides : Dict Text (RDep VSpec)) (requests : List D) : Except PErr (List (Pkg D)) :=
  match resolve specifiers { installing pre repo (requests.map dep) unspecified true with overrides := overrides } ch fuel with
  | .ok out => .ok (out.map (toPlan pre true))
  | .error (.solver .unsolvable) => .error .unsolvable
  | .error _ => .error .valueError

/-- `install` (pi 95-111) with `dependencies_override`, which only the first attempt is given (pi 172-173, 189-190). -/
def installOverriding (dep : D → RDep VSpec) (ch : Choices RPkg VSpec) (fuel : Nat) (auto : Text → StoreMode) (site : List (Placed D)) (repo : Source)
    (deps : List D) (userRequested : Bool) (overrides : Dict Text (RDep VSpec)) (storeModes : Dict Text StoreMode) (updates : List Text) :
    Option (Dict Text (Inst D)) :=
  let pre := site.filter (fun p => !updates.contains p.inst.key)
  let unspecified := (deps.filter (isAll dep)).map (keyOf dep)
  match planInstallation ⟨keyOf dep, isAll dep⟩ (fun _ rs => resolvedOverriding dep ch fuel pre repo unspecified overrides rs)
      (fun _ rs => resolved dep ch fuel pre repo unspecified false rs) (fun _ => []) (site.map (·.inst)) deps userRequested updates [] with
  | .error _ => none
  | .ok plan =>
    let plan := { plan with storeModes := storeModes }
    runTasks auto plan (tasks plan (site.map (·.inst))) (dictBy Inst.key (site.map (·.inst)))

/-- `all_deps` (pi 160-161): the requests of the second attempt. -/
def allRequests (dep : D → RDep VSpec) (site : List (Placed D)) (deps : List D) (updates : List Text) : Dict Text D :=
  merge (preRequested ((site.map (·.inst)).filter (fun p => !updates.contains p.key))) (dictBy (keyOf dep) deps)

end Reworking
open Reworking

namespace Spec

/-- The repository's packages have valid names, and its answers for URLs the name and version that was asked for. -/
structure SoundSource (repo : Source) : Prop where
  listed : ∀ n, ∀ o ∈ repo.list n, packageNameKey o.name ≠ none
  urls : ∀ n v o, repo.matchUrl n v = some o → packageNameKey o.name ≠ none ∧ packageNameKey o.name = packageNameKey n ∧ o.version.eqv v = true

/-- The first attempt of `install` finds that nothing can be added without a change, and the second one selects these packages. (The repository has all
the packages that are asked for without a version: for others the first attempt raises `ValueError`.) -/
structure Reworked (dep : D → RDep VSpec) (ch : Choices RPkg VSpec) (fuel : Nat) (site : List (Placed D)) (repo : Source) (deps : List D)
    (updates : List Text) (out : List (Obj Ver VSpec)) : Prop where
  known : ∀ d ∈ deps, (dep d).spec = .all → repo.list (dep d).name ≠ []
  first : resolve specifiers (installing (site.filter (fun p => !updates.contains p.inst.key)) repo ((Dict.values (dictBy (keyOf dep) deps)).map dep)
    ((deps.filter (isAll dep)).map (keyOf dep)) true) ch fuel = .error (.solver .unsolvable)
  second : resolve specifiers (installing (site.filter (fun p => !updates.contains p.inst.key)) repo ((Dict.values (allRequests dep site deps updates)).map dep)
    ((deps.filter (isAll dep)).map (keyOf dep)) false) ch fuel = .ok out

/-- The package of this name key is called for, with these extras: by the root, or by a package of `out`, or for its extras by a package of the repositories,
that is itself called for. -/
inductive CalledFor {V S : Type} (s : Setting V S) (out : List (Obj V S)) : Text → List Text → Prop where
  | root (k : Text) (h : packageNameKey s.root.name = some k) : CalledFor s out k (s.root.extras.getD [])
  | dependency (k : Text) (x : List Text) (h : CalledFor s out k x) (o : Obj V S) (n : Text) (v : V) (ho : objectOf s n v = some o)
      (hin : x = [] → o ∈ out) (hk : packageNameKey o.name = some k) (ds : List (RDep S)) (hds : o.dependencies x = some ds) (d : RDep S) (hd : d ∈ ds)
      (ha : d.applies x = true) (e : RDep S) (he : Counts s d e) (j : Text) (hj : packageNameKey e.name = some j) : CalledFor s out j (e.extras.getD [])
  | itself (k : Text) (x : List Text) (h : CalledFor s out k x) : CalledFor s out k []

end Spec
open Spec

namespace Reworking

/-- Nothing is selected that is not called for. -/
theorem selected_called_for {V S : Type} {alg : Alg V S} {s : Setting V S} {ch : Choices RPkg S} {fuel : Nat} {out : List (Obj V S)} (hu : UrlsAnswered s)
    (hnames : ∀ n v o, objectOf s n v = some o → packageNameKey o.name ≠ none) (h : resolve alg s ch fuel = .ok out) :
    ∀ o ∈ out, ∀ k, packageNameKey o.name = some k → CalledFor s out k [] := by
  obtain ⟨sel, hwf, hout, -, hcl, hj⟩ := resolver_output h
  have key : ∀ p, Justified alg s sel p → ∀ k, packageNameKey p.name = some k → CalledFor s out k (p.extras.getD []) := by
    intro p hp
    induction hp with
    | root =>
      intro k hk
      exact .root k (by rw [← EndToEnd.key_lower]; exact hk)
    | wanted p v q c hp hv hw ih =>
      intro k hk
      cases hw with
      | base hx => exact .itself k _ (ih k hk)
      | dependency o ds d e ho hds hd ha he =>
        have hn := EndToEnd.object_facts hu ho
        cases hkp : packageNameKey p.name with
        | none => exact absurd (hn.1.trans hkp) (hnames _ _ _ ho)
        | some kp =>
          refine .dependency kp _ (ih kp hkp) o _ _ ho (fun hx => ?_) (hn.1.trans hkp) ds hds d hd ha e he k ?_
          · exact (EndToEnd.mem_out hout o).2 ⟨p, v, hv, by simp [RPkg.hasExtras, hx], ho⟩
          · rw [← EndToEnd.key_lower]; exact hk
  intro o ho k hk
  obtain ⟨p, v, hpv, hx, hob⟩ := (EndToEnd.mem_out hout o).1 ho
  have := key p (hj p v hpv) k (by rw [← (EndToEnd.object_facts hu hob).1]; exact hk)
  rwa [EndToEnd.no_extras hx] at this

section
variable {pre : List (Placed D)} {repo : Source} {rs : List (RDep VSpec)} {un : List Text}

/-- The requests of the packages that stay. -/
theorem requested_before {site : List (Placed D)} (hv : ValidSite site) {updates : List Text} {p : Placed D} (hp : p ∈ site) {r : D}
    (hu : p.inst.key ∉ updates) (hr : p.inst.request = some r) :
    (preRequested ((site.map (·.inst)).filter (fun p => !updates.contains p.key))).get p.inst.key = some r := by
  have hkeys : (((site.map (·.inst)).filter (fun p => !updates.contains p.key)).map Inst.key).Nodup := by
    have h3 : ((site.map (·.inst)).map Inst.key).Nodup := by rw [List.map_map]; exact hv.keys
    exact h3.sublist (List.Sublist.map _ List.filter_sublist)
  have hm : p.inst ∈ (site.map (·.inst)).filter (fun p => !updates.contains p.key) :=
    List.mem_filter.2 ⟨List.mem_map.2 ⟨p, hp, rfl⟩, by simpa using hu⟩
  have hfind : ((site.map (·.inst)).filter (fun p => !updates.contains p.key)).find? (fun q => decide (q.key = p.inst.key)) = some p.inst := by
    cases hf : ((site.map (·.inst)).filter (fun p => !updates.contains p.key)).find? (fun q => decide (q.key = p.inst.key)) with
    | none =>
      have := List.find?_eq_none.1 hf p.inst hm
      simp at this
    | some q =>
      have hq1 := List.find?_some hf
      simp only [decide_eq_true_eq] at hq1
      rw [EndToEnd.nodup_map_inj hkeys (List.mem_of_find?_eq_some hf) hm hq1]
  refine (preRequested_get _ [] _ hkeys).trans ?_
  rw [hfind]
  simp only [hr]

theorem mem_offered {n : Text} {o : Obj Ver VSpec} (h : o ∈ offeredBy pre repo rs un false n) :
    (packageNameKey n = some requestKey ∧ o = requestPackage rs) ∨ (packageNameKey n ≠ some requestKey ∧ o ∈ repo.list n) := by
  unfold offeredBy at h
  split at h
  · rename_i hk
    exact .inl ⟨hk, List.mem_singleton.1 h⟩
  · rename_i hk
    refine .inr ⟨hk, ?_⟩
    split at h
    · simp only [Bool.false_eq_true, if_false] at h
      exact (sortBy_perm _ _).mem_iff.1 h
    · simpa using h

theorem urls_answered (hs : SoundSource repo) : UrlsAnswered (installing pre repo rs un false) := by
  intro n v o hv h
  simp only [installing] at h
  split at h
  · rename_i hk
    simp only [Option.some.injEq] at h
    subst h
    exact ⟨by rw [hk]; exact requestName_key, fun hne => absurd hk hne⟩
  · have : repo.matchUrl n v = some o := by
      split at h
      · simpa using h
      · exact h
    exact ⟨(hs.urls n v o this).2.1, fun _ => (hs.urls n v o this).2.2⟩

/-- What is found: the request, or a package with a valid name that is not that of the request. -/
theorem found (hs : SoundSource repo) {n : Text} {v : Ver} {o : Obj Ver VSpec} (h : objectOf (installing pre repo rs un false) n v = some o) :
    (packageNameKey o.name = some requestKey ∧ o = requestPackage rs) ∨ ∃ k, packageNameKey o.name = some k ∧ k ≠ requestKey := by
  have hn := (EndToEnd.object_facts (urls_answered hs) h).1
  have other : packageNameKey n ≠ some requestKey → packageNameKey o.name ≠ none → ∃ k, packageNameKey o.name = some k ∧ k ≠ requestKey := by
    intro h1 h2
    cases hk : packageNameKey o.name with
    | none => exact absurd hk h2
    | some k =>
      refine ⟨k, rfl, fun e => h1 ?_⟩
      rw [← hn, hk, e]
  by_cases hk : packageNameKey n = some requestKey
  · left
    refine ⟨hn.trans hk, ?_⟩
    unfold objectOf at h
    split at h
    · simp only [installing, hk, if_true, Option.some.injEq] at h; exact h.symm
    · unfold opened at h
      rcases mem_offered (mem_compatibles (List.mem_reverse.1 (List.mem_of_find?_eq_some h))).1 with h1 | h1
      · exact h1.2
      · exact absurd hk h1.1
  · right
    refine other hk ?_
    unfold objectOf at h
    split at h
    · have : repo.matchUrl n v = some o := by
        simp only [installing, hk, if_false] at h
        split at h
        · simpa using h
        · exact h
      exact (hs.urls n v o this).1
    · unfold opened at h
      rcases mem_offered (mem_compatibles (List.mem_reverse.1 (List.mem_of_find?_eq_some h))).1 with h1 | h1
      · exact absurd h1.1 hk
      · exact hs.listed n o h1.2

theorem found_valid (hs : SoundSource repo) {n : Text} {v : Ver} {o : Obj Ver VSpec} (h : objectOf (installing pre repo rs un false) n v = some o) :
    packageNameKey o.name ≠ none := by
  rcases found hs h with ⟨e, -⟩ | ⟨k, e, -⟩ <;> simp [e]

/-- What is planned for a package that was found. -/
theorem toPlan_found {o : Obj Ver VSpec}
    (h : (packageNameKey o.name = some requestKey ∧ o = requestPackage rs) ∨ ∃ k, packageNameKey o.name = some k ∧ k ≠ requestKey) :
    (some (toPlan pre false o : Pkg D).key, (toPlan pre false o : Pkg D).version) = (packageNameKey o.name, o.version) ∧
      ((toPlan pre false o : Pkg D).isUserRequest = false ↔ packageNameKey o.name ≠ some requestKey) ∧
      ∀ i, toPlan pre false o ≠ Pkg.installed i := by
  rcases h with ⟨hk, rfl⟩ | ⟨k, hk, hne⟩
  · have : toPlan pre false (requestPackage rs) = (.userRequest : Pkg D) := by unfold toPlan; simp only [hk, Option.getD_some, if_true]
    rw [this, hk]
    exact ⟨rfl, by simp [Pkg.isUserRequest], fun i h => by cases h⟩
  · have : toPlan pre false o = (.repo k o.version : Pkg D) := by
      unfold toPlan; simp only [hk, Option.getD_some, hne, if_false, Bool.false_eq_true]
    rw [this, hk]
    exact ⟨rfl, by simp [Pkg.isUserRequest, hne], fun i h => by cases h⟩

end

section
variable {dep : D → RDep VSpec} {ch : Choices RPkg VSpec} {fuel : Nat} {site : List (Placed D)} {repo : Source} {deps : List D} {updates : List Text}
  {out : List (Obj Ver VSpec)}

/-- The plan of the second attempt. -/
theorem reworked_plan (hw : Reworked dep ch fuel site repo deps updates out) (auto : Text → StoreMode) (userRequested : Bool)
    (storeModes : Dict Text StoreMode) :
    ∃ plan : Plan D, installInto dep ch fuel auto site repo deps userRequested storeModes updates =
        runTasks auto plan (tasks plan (site.map (·.inst))) (dictBy Inst.key (site.map (·.inst))) ∧
      plan.packages = out.map (toPlan (site.filter (fun p => !updates.contains p.inst.key)) false) ∧
      plan.requests = (if userRequested then allRequests dep site deps updates
        else preRequested ((site.map (·.inst)).filter (fun p => !updates.contains p.key))) := by
  have h1 : resolved dep ch fuel (site.filter (fun p => !updates.contains p.inst.key)) repo ((deps.filter (isAll dep)).map (keyOf dep)) true
      (Dict.values (dictBy (keyOf dep) deps)) = .error .unsolvable := by
    unfold resolved
    rw [hw.first]
  have h2 : resolved dep ch fuel (site.filter (fun p => !updates.contains p.inst.key)) repo ((deps.filter (isAll dep)).map (keyOf dep)) false
      (Dict.values (allRequests dep site deps updates)) = .ok (out.map (toPlan (site.filter (fun p => !updates.contains p.inst.key)) false)) := by
    unfold resolved
    rw [hw.second]
  refine ⟨⟨_, if userRequested then allRequests dep site deps updates
        else preRequested ((site.map (·.inst)).filter (fun p => !updates.contains p.key)), storeModes⟩, ?_, rfl, rfl⟩
  unfold installInto planInstallation
  unfold allRequests at h2
  simp only [h1, h2]
  rfl

theorem out_found (hs : SoundSource repo) (hw : Reworked dep ch fuel site repo deps updates out) {o : Obj Ver VSpec} (ho : o ∈ out) :
    (packageNameKey o.name = some requestKey ∧ o = requestPackage ((Dict.values (allRequests dep site deps updates)).map dep)) ∨
      ∃ k, packageNameKey o.name = some k ∧ k ≠ requestKey := by
  obtain ⟨sel, -, hout, -, -, -⟩ := resolver_output hw.second
  obtain ⟨p, v, -, -, hob⟩ := (EndToEnd.mem_out hout o).1 ho
  exact found hs hob

theorem no_installed (hs : SoundSource repo) (hw : Reworked dep ch fuel site repo deps updates out) {plan : Plan D}
    (hp : plan.packages = out.map (toPlan (site.filter (fun p => !updates.contains p.inst.key)) false)) (i : Inst D) : Pkg.installed i ∉ plan.packages := by
  intro hi
  rw [hp] at hi
  obtain ⟨o, ho, e⟩ := List.mem_map.1 hi
  exact (toPlan_found (out_found hs hw ho)).2.2 i e

theorem plan_of (hs : SoundSource repo) (hw : Reworked dep ch fuel site repo deps updates out) {plan : Plan D}
    (hp : plan.packages = out.map (toPlan (site.filter (fun p => !updates.contains p.inst.key)) false)) : PlanOf id out plan.packages := by
  refine ⟨plan.packages, [], by simp, ?_, fun p h => by cases h⟩
  rw [hp, List.map_map]
  apply List.map_congr_left
  intro o ho
  exact (toPlan_found (out_found hs hw ho)).1

/-- Which names are planned. -/
theorem planned_names (hs : SoundSource repo) (hw : Reworked dep ch fuel site repo deps updates out) {plan : Plan D}
    (hp : plan.packages = out.map (toPlan (site.filter (fun p => !updates.contains p.inst.key)) false)) (k : Text) :
    (∀ q, planned plan.packages k = some q → k ≠ requestKey ∧ ∃ o ∈ out, packageNameKey o.name = some k ∧ q.version = o.version) ∧
    ((k ≠ requestKey ∧ ∃ o ∈ out, packageNameKey o.name = some k) → (planned plan.packages k).isSome) := by
  constructor
  · intro q hq
    obtain ⟨hu, hqk, hqm⟩ := planned_facts _ _ _ hq
    rw [hp] at hqm
    obtain ⟨o, ho, rfl⟩ := List.mem_map.1 hqm
    obtain ⟨h1, h2, -⟩ := toPlan_found (pre := site.filter (fun p => !updates.contains p.inst.key)) (D := D) (out_found hs hw ho)
    simp only [Prod.mk.injEq] at h1
    have hok : packageNameKey o.name = some k := by rw [← h1.1, hqk]
    refine ⟨?_, o, ho, hok, h1.2⟩
    rintro rfl
    exact h2.1 hu hok
  · rintro ⟨hne, o, ho, hk⟩
    obtain ⟨h1, h2, -⟩ := toPlan_found (pre := site.filter (fun p => !updates.contains p.inst.key)) (D := D) (out_found hs hw ho)
    simp only [Prod.mk.injEq] at h1
    cases hpl : planned plan.packages k with
    | some q => rfl
    | none =>
      unfold planned at hpl
      rw [List.getLast?_eq_none_iff, List.filter_eq_nil_iff] at hpl
      refine absurd ?_ (hpl (toPlan (site.filter (fun p => !updates.contains p.inst.key)) false o) (by rw [hp]; exact List.mem_map.2 ⟨o, ho, rfl⟩))
      have hkey : (toPlan (site.filter (fun p => !updates.contains p.inst.key)) false o : Pkg D).key = k := by
        have := h1.1; rw [hk] at this; simpa using this
      rw [h2.2 (by rw [hk]; simpa using hne), hkey]
      simp

theorem requested_out (hs : SoundSource repo) (hw : Reworked dep ch fuel site repo deps updates out) {k : Text} {d : D}
    (hd : (allRequests dep site deps updates).get k = some d) (ha : (dep d).applies [] = true) (hk : packageNameKey (dep d).name = some k) :
    ∃ o ∈ out, packageNameKey o.name = some k := by
  have hm : dep d ∈ (Dict.values (allRequests dep site deps updates)).map dep :=
    List.mem_map.2 ⟨d, List.mem_map.2 ⟨_, Dict.get_mem _ _ _ hd, rfl⟩, rfl⟩
  obtain ⟨w, o, ho, hmo⟩ := request_selected hw.second hm ha
  refine ⟨o, hmo, ?_⟩
  rw [(EndToEnd.object_facts (urls_answered hs) ho).1, EndToEnd.key_lower]
  exact hk

end
end Reworking

section
variable {dep : D → RDep VSpec} {ch : Choices RPkg VSpec} {fuel : Nat} {site : List (Placed D)} {repo : Source} {deps : List D} {updates : List Text}
  {out : List (Obj Ver VSpec)}

/-- C108: the second attempt leaves exactly the packages that the resolver selected, in the versions that it selected; everything else is removed. -/
theorem rework_leaves_selected (hs : SoundSource repo) (hw : Reworked dep ch fuel site repo deps updates out) (auto : Text → StoreMode)
    (userRequested : Bool) (storeModes : Dict Text StoreMode) :
    ∃ after, installInto dep ch fuel auto site repo deps userRequested storeModes updates = some after ∧
      (∀ k, (after.get k).isSome ↔ k ≠ requestKey ∧ ∃ o ∈ out, packageNameKey o.name = some k) ∧
      (∀ k i, after.get k = some i → ∃ o ∈ out, packageNameKey o.name = some k ∧ i.version.eqv o.version = true) ∧
      ∀ k i, after.get k = some i → CalledFor (installing (site.filter (fun p => !updates.contains p.inst.key)) repo
        ((Dict.values (allRequests dep site deps updates)).map dep) ((deps.filter (isAll dep)).map (keyOf dep)) false) out k [] := by
  obtain ⟨plan, hi, hp, -⟩ := reworked_plan hw auto userRequested storeModes
  obtain ⟨after, h1, h2⟩ := plan_executes auto plan (site.map (·.inst)) (fun i h => absurd h (no_installed hs hw hp i)) _ (List.Perm.refl _)
  have hver : ∀ k i, after.get k = some i → k ≠ requestKey ∧ ∃ o ∈ out, packageNameKey o.name = some k ∧ i.version.eqv o.version = true := by
    intro k i hg
    have h := h2 k
    cases hpl : planned plan.packages k with
    | none => rw [hpl] at h; rw [h] at hg; cases hg
    | some q =>
      rw [hpl] at h
      obtain ⟨j, hj, -, hv, -⟩ := h
      rw [hj] at hg
      simp only [Option.some.injEq] at hg
      subst hg
      obtain ⟨hne, o, ho, hk, e⟩ := (planned_names hs hw hp k).1 q hpl
      exact ⟨hne, o, ho, hk, e ▸ hv⟩
  refine ⟨after, by rw [hi]; exact h1, ?_, fun k i hg => (hver k i hg).2, ?_⟩
  · intro k
    constructor
    · intro hsome
      obtain ⟨i, hg⟩ := Option.isSome_iff_exists.1 hsome
      obtain ⟨hne, o, ho, hk, -⟩ := hver k i hg
      exact ⟨hne, o, ho, hk⟩
    · intro hk
      have h := h2 k
      obtain ⟨q, hq⟩ := Option.isSome_iff_exists.1 ((planned_names hs hw hp k).2 hk)
      rw [hq] at h
      obtain ⟨j, hj, -⟩ := h
      rw [hj]; rfl
  · intro k i hg
    obtain ⟨-, o, ho, hk, -⟩ := hver k i hg
    exact selected_called_for (urls_answered hs) (fun n v o h => found_valid hs h) hw.second o ho k hk

/-- C108: after the second attempt every package that the user requested before, unless it is listed in `updates` or requested anew, is still installed and
recorded with this request; and everything requested anew is installed and, for a request of the user, recorded with it. -/
theorem rework_keeps_requests (hv : ValidSite site) (hs : SoundSource repo) (hw : Reworked dep ch fuel site repo deps updates out) (auto : Text → StoreMode)
    (userRequested : Bool) (storeModes : Dict Text StoreMode) :
    ∃ after, installInto dep ch fuel auto site repo deps userRequested storeModes updates = some after ∧
      (∀ p ∈ site, ∀ r, p.inst.key ∉ updates → p.inst.request = some r → packageNameKey (dep r).name = some p.inst.key → (dep r).applies [] = true →
        (∀ d ∈ deps, keyOf dep d ≠ p.inst.key) → ∃ i, after.get p.inst.key = some i ∧ i.request = some r) ∧
      (∀ d ∈ deps, ∀ k, packageNameKey (dep d).name = some k → k ≠ requestKey → (dep d).applies [] = true → (∀ e ∈ deps, keyOf dep e = k → e = d) →
        ∃ i, after.get k = some i ∧ (userRequested = true → i.request = some d)) := by
  obtain ⟨plan, hi, hp, hr⟩ := reworked_plan hw auto userRequested storeModes
  obtain ⟨after, h1, h2⟩ := plan_executes auto plan (site.map (·.inst)) (fun i h => absurd h (no_installed hs hw hp i)) _ (List.Perm.refl _)
  have have_it : ∀ k d, k ≠ requestKey → (allRequests dep site deps updates).get k = some d → (dep d).applies [] = true →
      packageNameKey (dep d).name = some k → ∃ i, after.get k = some i ∧ ∀ r, plan.requests.get k = some r → i.request = some r := by
    intro k d hne hd ha hk
    obtain ⟨o, ho, hok⟩ := requested_out hs hw hd ha hk
    obtain ⟨q, hq⟩ := Option.isSome_iff_exists.1 ((planned_names hs hw hp k).2 ⟨hne, o, ho, hok⟩)
    have h := h2 k
    rw [hq] at h
    obtain ⟨i, hg, -, -, hreq⟩ := h
    exact ⟨i, hg, hreq⟩
  have hpreget : ∀ p ∈ site, ∀ r, p.inst.key ∉ updates → p.inst.request = some r →
      (preRequested ((site.map (·.inst)).filter (fun p => !updates.contains p.key))).get p.inst.key = some r :=
    fun p hpm r hu hreq => requested_before hv hpm hu hreq
  refine ⟨after, by rw [hi]; exact h1, ?_, ?_⟩
  · intro p hpm r hu hreq hk ha hnew
    have hpre := hpreget p hpm r hu hreq
    have hall : (allRequests dep site deps updates).get p.inst.key = some r := by
      unfold allRequests merge
      rw [merge_get _ _ _ (dictBy_wf _ _), (dictBy_get_none _ _ _).2 hnew, hpre]
      rfl
    obtain ⟨i, hg, hri⟩ := have_it _ r (hv.named p hpm).2 hall ha hk
    refine ⟨i, hg, hri r ?_⟩
    rw [hr]
    split
    · exact hall
    · exact hpre
  · intro d hd k hk hne ha hone
    have hkd : keyOf dep d = k := by simp [keyOf, hk]
    have hnewget : (dictBy (keyOf dep) deps).get k = some d := by
      obtain ⟨y, hy⟩ := dictBy_get_isSome (keyOf dep) deps d hd
      rw [hkd] at hy
      obtain ⟨e1, e2⟩ := dictBy_get_key _ _ _ _ hy
      rw [hy, hone y e2 e1]
    have hall : (allRequests dep site deps updates).get k = some d := by
      unfold allRequests merge
      rw [merge_get _ _ _ (dictBy_wf _ _), hnewget]
      rfl
    obtain ⟨i, hg, hri⟩ := have_it _ d hne hall ha hk
    refine ⟨i, hg, fun hur => hri d ?_⟩
    rw [hr, hur]
    exact hall

/-- C108: if the versions that the second attempt prefers fit together (`Preferred`) then the site afterwards meets everything that its packages demand.
Missing: repositories where the first choice does not fit (there the resolver itself may be wrong, see C14). -/
theorem rework_meets_partial (hs : SoundSource repo) {R : List RPkg} {sel : RPkg → Ver}
    (hpr : Preferred (problem specifiers (installing (site.filter (fun p => !updates.contains p.inst.key)) repo
      ((Dict.values (allRequests dep site deps updates)).map dep) ((deps.filter (isAll dep)).map (keyOf dep)) false)) R sel)
    (hsel : ∀ n x, sel ⟨n, x⟩ = sel ⟨n, none⟩)
    (hx : NoEmptyExtras (installing (site.filter (fun p => !updates.contains p.inst.key)) repo ((Dict.values (allRequests dep site deps updates)).map dep)
      ((deps.filter (isAll dep)).map (keyOf dep)) false))
    (hone : OneSpelling (installing (site.filter (fun p => !updates.contains p.inst.key)) repo ((Dict.values (allRequests dep site deps updates)).map dep)
      ((deps.filter (isAll dep)).map (keyOf dep)) false)) (ch : Choices RPkg VSpec) :
    ∃ n, ∀ fuel, n ≤ fuel → (∀ d ∈ deps, (dep d).spec = .all → repo.list (dep d).name ≠ []) →
      resolve specifiers (installing (site.filter (fun p => !updates.contains p.inst.key)) repo ((Dict.values (dictBy (keyOf dep) deps)).map dep)
        ((deps.filter (isAll dep)).map (keyOf dep)) true) ch fuel = .error (.solver .unsolvable) →
      ∀ (auto : Text → StoreMode) (userRequested : Bool) (storeModes : Dict Text StoreMode),
        ∃ out after, Reworked dep ch fuel site repo deps updates out ∧
          installInto dep ch fuel auto site repo deps userRequested storeModes updates = some after ∧
          ∀ e, Demands (installing (site.filter (fun p => !updates.contains p.inst.key)) repo ((Dict.values (allRequests dep site deps updates)).map dep)
            ((deps.filter (isAll dep)).map (keyOf dep)) false) out e → packageNameKey e.name ≠ some requestKey → MetIn specifiers id after e := by
  obtain ⟨n, hn⟩ := install_found_partial (D := D) hpr hsel hx hone (urls_answered hs) (fun a b h => h) ch
  refine ⟨n, fun fuel hf hknown hfirst auto userRequested storeModes => ?_⟩
  obtain ⟨out, hout, hsite⟩ := hn fuel hf
  have hw : Reworked dep ch fuel site repo deps updates out := ⟨hknown, hfirst, hout⟩
  obtain ⟨plan, hi, hp, -⟩ := reworked_plan hw auto userRequested storeModes
  obtain ⟨after, h1, h2⟩ := hsite auto plan (site.map (·.inst)) _ (plan_of hs hw hp) (fun i h => absurd h (no_installed hs hw hp i)) (List.Perm.refl _)
  exact ⟨out, after, hw, by rw [hi]; exact h1, h2⟩

/-- C108 fails for packages that the repository does not have, as those from a directory or an archive: if the user requested such a package and installing
needs the second attempt, then installing fails, whatever could be selected for the rest. -/
theorem rework_unlisted_violated (hv : ValidSite site) (hnone : ∀ n v, repo.matchUrl n v = none)
    (hfirst : resolve specifiers (installing (site.filter (fun p => !updates.contains p.inst.key)) repo ((Dict.values (dictBy (keyOf dep) deps)).map dep)
      ((deps.filter (isAll dep)).map (keyOf dep)) true) ch fuel = .error (.solver .unsolvable))
    {p : Placed D} (hp : p ∈ site) (hu : p.inst.key ∉ updates) {r : D} (hr : p.inst.request = some r) (hk : packageNameKey (dep r).name = some p.inst.key)
    (ha : (dep r).applies [] = true) (hnew : ∀ d ∈ deps, keyOf dep d ≠ p.inst.key) (hmissing : repo.list (lower (dep r).name) = [])
    (auto : Text → StoreMode) (userRequested : Bool) (storeModes : Dict Text StoreMode) :
    installInto dep ch fuel auto site repo deps userRequested storeModes updates = none := by
  have hpre := requested_before hv hp hu hr
  have hall : (allRequests dep site deps updates).get p.inst.key = some r := by
    unfold allRequests merge
    rw [merge_get _ _ _ (dictBy_wf _ _), (dictBy_get_none _ _ _).2 hnew, hpre]
    rfl
  have hmem : dep r ∈ (Dict.values (allRequests dep site deps updates)).map dep :=
    List.mem_map.2 ⟨r, List.mem_map.2 ⟨_, Dict.get_mem _ _ _ hall, rfl⟩, rfl⟩
  have hnever : ∀ out, resolve specifiers (installing (site.filter (fun p => !updates.contains p.inst.key)) repo
      ((Dict.values (allRequests dep site deps updates)).map dep) ((deps.filter (isAll dep)).map (keyOf dep)) false) ch fuel ≠ .ok out := by
    intro out hout
    obtain ⟨w, o, ho, -⟩ := request_selected hout hmem ha
    have hnk : packageNameKey (lower (dep r).name) ≠ some requestKey := by
      rw [EndToEnd.key_lower, hk]
      simpa using (hv.named p hp).2
    unfold objectOf at ho
    split at ho
    · simp only [installing, hnk, if_false, hnone] at ho
      split at ho <;> simp at ho
    · unfold opened at ho
      rcases mem_offered (mem_compatibles (List.mem_reverse.1 (List.mem_of_find?_eq_some ho))).1 with h1 | h1
      · exact hnk h1.1
      · rw [hmissing] at h1; cases h1.2
  have h1 : resolved dep ch fuel (site.filter (fun p => !updates.contains p.inst.key)) repo ((deps.filter (isAll dep)).map (keyOf dep)) true
      (Dict.values (dictBy (keyOf dep) deps)) = .error .unsolvable := by
    unfold resolved
    rw [hfirst]
  have h2 : ∃ e, resolved dep ch fuel (site.filter (fun p => !updates.contains p.inst.key)) repo ((deps.filter (isAll dep)).map (keyOf dep)) false
      (Dict.values (allRequests dep site deps updates)) = .error e := by
    unfold resolved
    split
    · rename_i out hout; exact absurd hout (hnever out)
    · exact ⟨_, rfl⟩
    · exact ⟨_, rfl⟩
  obtain ⟨e, h2⟩ := h2
  unfold installInto planInstallation
  unfold allRequests at h2
  simp only [h1, h2]

end

/-! ## Examples -/

namespace ReworkingExample

/-- x in two versions, y that requires x from 2 on, w. -/
def repo : Source := UpdatingExample.source [(['x'], ResolverExample.ver 2, []), (['x'], ResolverExample.ver 1, []),
  (['y'], ResolverExample.ver 1, [{ name := ['x'], spec := ResolverExample.ge 2 }]), (['w'], ResolverExample.ver 1, [])]

/-- 0: y, 1: w, 2: u, each without a version. -/
def requests (n : Nat) : RDep VSpec := { name := if n = 0 then ['y'] else if n = 1 then ['w'] else ['u'], spec := .all }

/-- x 1; w, which the user requested; z, which nobody requested and the repository does not have. -/
def site : List (Placed Nat) :=
  [⟨⟨['x'], ResolverExample.ver 1, .copy, none⟩, ['x'], true, []⟩, ⟨⟨['w'], ResolverExample.ver 1, .copy, some 1⟩, ['w'], true, []⟩,
   ⟨⟨['z'], ResolverExample.ver 1, .copy, none⟩, ['z'], true, []⟩]

/-- The same with u, which the user requested and which the repository does not have. -/
def local' : List (Placed Nat) := site ++ [⟨⟨['u'], ResolverExample.ver 1, .copy, some 2⟩, ['u'], true, []⟩]

theorem site_valid : ValidSite site := ⟨by decide, by decide⟩
theorem local_valid : ValidSite local' := ⟨by decide, by decide⟩

theorem source_sound {pkgs : List (Text × Ver × List (RDep VSpec))} (h : ∀ p ∈ pkgs, packageNameKey p.1 ≠ none) : SoundSource (UpdatingExample.source pkgs) := by
  refine ⟨fun n o ho => ?_, fun n v o ho => by cases ho⟩
  simp only [UpdatingExample.source, List.mem_map, List.mem_filter] at ho
  obtain ⟨p, ⟨hp, -⟩, rfl⟩ := ho
  exact h p hp

theorem sound : SoundSource repo := source_sound (by decide)

/-- What the second attempt of installing y resolves. -/
def setting : Setting Ver VSpec :=
  installing (site.filter (fun p => !([] : List Text).contains p.inst.key)) repo ((Dict.values (allRequests requests site [0] [])).map requests)
    (([0].filter (isAll requests)).map (keyOf requests)) false

def sel (p : RPkg) : Ver := if p.name = requestName then requestVersion else if p.name = ['x'] then ResolverExample.ver 2 else ResolverExample.ver 1

def all : List RPkg := [⟨requestName, none⟩, ⟨['w'], none⟩, ⟨['y'], none⟩, ⟨['x'], none⟩]

theorem preferred : Preferred (problem specifiers setting) all sel where
  root := by decide +kernel
  first := by decide +kernel
  offered := by decide +kernel
  standard p hp v hv := by
    have : v = ResolverExample.ver 0 ∨ v = ResolverExample.ver 1 ∨ v = ResolverExample.ver 2 := by
      revert v; revert p; decide +kernel
    rcases this with rfl | rfl | rfl
    · exact UninstallExample.offered_ver 0
    · exact UninstallExample.offered_ver 1
    · exact UninstallExample.offered_ver 2
  distinct := by decide +kernel
  deps := by
    have hd : ∀ p ∈ all, ((problem specifiers setting).versions p).Pairwise (fun a b => a.eqv b = false) := by decide +kernel
    intro p hp
    simp only [all, List.mem_cons, List.not_mem_nil, or_false] at hp
    rcases hp with rfl | rfl | rfl | rfl
    · refine ⟨[(⟨['w'], none⟩, .all), (⟨['y'], none⟩, .all)], rfl, ?_⟩
      intro q c hq
      simp only [List.mem_cons, List.not_mem_nil, or_false, Prod.mk.injEq] at hq
      rcases hq with ⟨rfl, rfl⟩ | ⟨rfl, rfl⟩
      · refine ⟨by decide, .all, rfl, .inl fun u hu => ?_⟩
        have := SolverExample.before_split hu (hd _ (by decide)) (a := []) (c := []) rfl
        simp at this
      · refine ⟨by decide, .all, rfl, .inl fun u hu => ?_⟩
        have := SolverExample.before_split hu (hd _ (by decide)) (a := []) (c := []) rfl
        simp at this
    · exact ⟨[], rfl, by simp⟩
    · refine ⟨[(⟨['x'], none⟩, ResolverExample.ge 2)], rfl, ?_⟩
      intro q c hq
      simp only [List.mem_cons, List.not_mem_nil, or_false, Prod.mk.injEq] at hq
      obtain ⟨rfl, rfl⟩ := hq
      refine ⟨by decide, SolverExample.ge_wanted 2, by decide +kernel, .inl fun u hu => ?_⟩
      have := SolverExample.before_split hu (hd _ (by decide)) (a := [ResolverExample.ver 1]) (c := []) rfl
      simp at this; subst this; left; decide +kernel
    · exact ⟨[], rfl, by simp⟩

theorem depends {n : Text} {v : Ver} {o : Obj Ver VSpec} {x : List Text} {ds : List (RDep VSpec)} {d : RDep VSpec}
    (h : objectOf setting n v = some o) (hds : o.dependencies x = some ds) (hd : d ∈ ds) :
    (d.name = ['x'] ∨ d.name = ['y'] ∨ d.name = ['w']) ∧ d.extras = none := by
  have h' : o ∈ setting.list n ∨ o = requestPackage ((Dict.values (allRequests requests site [0] [])).map requests) := by
    unfold objectOf at h
    split at h
    · simp only [setting, installing] at h
      split at h
      · simp only [Option.some.injEq] at h; exact .inr h.symm
      · split at h <;> simp [repo, UpdatingExample.source] at h
    · exact .inl (mem_compatibles (List.mem_reverse.1 (List.mem_of_find?_eq_some h))).1
  have h'' : o ∈ repo.list n ∨ o = requestPackage ((Dict.values (allRequests requests site [0] [])).map requests) := by
    rcases h' with h' | h'
    · rcases mem_offered h' with h1 | h1
      · exact .inr h1.2
      · exact .inl h1.2
    · exact .inr h'
  rcases h'' with h' | rfl
  · simp only [repo, UpdatingExample.source, List.mem_map, List.mem_filter] at h'
    obtain ⟨p, ⟨hp, -⟩, rfl⟩ := h'
    simp only [Option.some.injEq] at hds
    subst hds
    simp only [List.mem_cons, List.not_mem_nil, or_false] at hp
    rcases hp with rfl | rfl | rfl | rfl <;> simp at hd <;> subst hd <;> simp
  · simp only [requestPackage, Option.some.injEq] at hds
    subst hds
    have hr : (Dict.values (allRequests requests site [0] [])).map requests = [requests 1, requests 0] := rfl
    rw [hr] at hd
    simp only [List.mem_cons, List.not_mem_nil, or_false] at hd
    rcases hd with rfl | rfl <;> simp [requests]

theorem first (l : List (Placed Nat)) (hl : l = site ∨ l = local') : resolve specifiers (installing (l.filter (fun p => !([] : List Text).contains p.inst.key)) repo
    ((Dict.values (dictBy (keyOf requests) [0])).map requests) (([0].filter (isAll requests)).map (keyOf requests)) true) UninstallExample.plainChoices 60 =
      .error (.solver .unsolvable) := by
  rcases hl with rfl | rfl
  · have h : (match resolve specifiers (installing (site.filter (fun p => !([] : List Text).contains p.inst.key)) repo
        ((Dict.values (dictBy (keyOf requests) [0])).map requests) (([0].filter (isAll requests)).map (keyOf requests)) true) UninstallExample.plainChoices 60 with
        | .error (.solver .unsolvable) => true | _ => false) = true := by decide +kernel
    split at h
    · assumption
    · cases h
  · have h : (match resolve specifiers (installing (local'.filter (fun p => !([] : List Text).contains p.inst.key)) repo
        ((Dict.values (dictBy (keyOf requests) [0])).map requests) (([0].filter (isAll requests)).map (keyOf requests)) true) UninstallExample.plainChoices 60 with
        | .error (.solver .unsolvable) => true | _ => false) = true := by decide +kernel
    split at h
    · assumption
    · cases h

theorem known : ∀ d ∈ [0], (requests d).spec = .all → repo.list (requests d).name ≠ [] := by
  intro d hd
  simp only [List.mem_singleton] at hd
  subst hd
  simp [requests, repo, UpdatingExample.source, List.filter, packageNameKey, srcPackageName, normalizeName]
  decide

end ReworkingExample
open ReworkingExample in
/-- The hypotheses of the theorems are met. -/
example : ∃ out, Reworked requests UninstallExample.plainChoices 60 site repo [0] [] out := by
  have h : (match resolve specifiers setting UninstallExample.plainChoices 60 with | .ok _ => true | .error _ => false) = true := by decide +kernel
  split at h
  · rename_i out hout; exact ⟨out, known, first site (.inl rfl), hout⟩
  · cases h

open ReworkingExample in
example : NoEmptyExtras setting ∧ OneSpelling setting ∧ ∀ n x, sel ⟨n, x⟩ = sel ⟨n, none⟩ := by
  refine ⟨⟨by decide, by simp [setting, installing, Dict.get], fun p v o x ds d h hds hd => ?_⟩, ?_, fun n x => rfl⟩
  · simp [(depends h hds hd).2]
  · have key : ∀ a, Mentioned setting a → a ∈ [requestName, ['x'], ['y'], ['w']] := by
      intro a h
      cases h with
      | root => exact List.mem_cons_self
      | override n e h => simp [setting, installing, Dict.get] at h
      | dependency n v o x ds d ho hds hd => rcases (depends ho hds hd).1 with h | h | h <;> rw [h] <;> decide
    have all : ∀ a ∈ [requestName, ['x'], ['y'], ['w']], ∀ b ∈ [requestName, ['x'], ['y'], ['w']], packageNameKey a = packageNameKey b → lower a = lower b := by
      decide +kernel
    exact fun a b ha hb => all a (key a ha) b (key b hb)

open ReworkingExample in
/-- y is installed, x is updated, z is removed and the request for w is kept. -/
example : (installInto requests UninstallExample.plainChoices 60 (fun _ => .copy) site repo [0] true [] []).map
    (·.map (fun e => (e.1, e.2.version, e.2.request))) =
      some [(['x'], ResolverExample.ver 2, none), (['w'], ResolverExample.ver 1, some 1), (['y'], ResolverExample.ver 1, some 0)] := by decide +kernel

open ReworkingExample in
/-- With u, which the repository does not have, installing y fails. -/
example : installInto requests UninstallExample.plainChoices 60 (fun _ => .copy) local' repo [0] true [] [] = none :=
  rework_unlisted_violated local_valid (fun _ _ => rfl) (first local' (.inr rfl)) (p := ⟨⟨['u'], ResolverExample.ver 1, .copy, some 2⟩, ['u'], true, []⟩)
    (by simp [local']) (by simp) (r := 2) rfl (by decide) rfl (by decide) (by decide +kernel) _ _ _

namespace ReworkingExample

/-- x 2 requires q, which there is not; x 1 requires y, in any version. -/
def overRepo : Source := UpdatingExample.source [(['x'], ResolverExample.ver 2, [{ name := ['q'], spec := .all }]),
  (['x'], ResolverExample.ver 1, [{ name := ['y'], spec := .all }]), (['y'], ResolverExample.ver 2, []), (['y'], ResolverExample.ver 1, [])]
def overRequests (n : Nat) : RDep VSpec := { name := ['x'], spec := .all }
def overrides : Dict Text (RDep VSpec) := [(['y'], { name := ['y'], spec := ResolverExample.lt 2 })]

end ReworkingExample

/-- Without overrides, `installOverriding` is `installInto`. -/
theorem no_overriding (dep : D → RDep VSpec) (ch : Choices RPkg VSpec) (fuel : Nat) (auto : Text → StoreMode) (site : List (Placed D)) (repo : Source)
    (deps : List D) (userRequested : Bool) (storeModes : Dict Text StoreMode) (updates : List Text) :
    installOverriding dep ch fuel auto site repo deps userRequested [] storeModes updates =
      installInto dep ch fuel auto site repo deps userRequested storeModes updates := by
  have h : ∀ pre un, resolvedOverriding dep ch fuel pre repo un [] = resolved dep ch fuel pre repo un true := by
    intro pre un
    funext rs
    unfold resolvedOverriding resolved
    have e : { installing pre repo (rs.map dep) un true with overrides := [] } = installing pre repo (rs.map dep) un true := rfl
    rw [e]
    generalize resolve specifiers (installing pre repo (rs.map dep) un true) ch fuel = x
    rcases x with (_ | _) | _ <;> rfl
  unfold installOverriding installInto
  simp only [h]
  generalize planInstallation _ _ _ _ _ _ _ _ _ = x
  cases x <;> rfl

open ReworkingExample in
/-- C108 fails for overrides: the second attempt ignores them. y is to be below 2 "forcefully", and installing x into an empty site installs y 2, although x 1
with y 1 would do. -/
theorem rework_override_violated :
    (installOverriding overRequests UninstallExample.plainChoices 60 (fun _ => .copy) [] overRepo [0] true overrides [] []).map (·.map (fun e => (e.1, e.2.version))) =
      some [(['x'], ResolverExample.ver 1), (['y'], ResolverExample.ver 2)] ∧
    (ResolverExample.lt 2).allows (ResolverExample.ver 2) = false ∧
    (match resolve specifiers { installing ([] : List (Placed Nat)) overRepo [overRequests 0] [['x']] false with overrides := overrides } UninstallExample.plainChoices 60 with
      | .ok out => some (out.map (fun o => (o.name, o.version))) | .error _ => none) =
      some [(requestName, requestVersion), (['x'], ResolverExample.ver 1), (['y'], ResolverExample.ver 1)] := by
  decide +kernel

end Pkm
