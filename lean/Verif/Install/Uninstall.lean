import Verif.Install.EndToEnd
import Verif.Install.Removal
set_option linter.unusedVariables false
set_option linter.unusedSimpArgs false
set_option linter.unusedSectionVars false
/-
C105: uninstalling takes away what is not needed any more, and does not break what stays. This joins the models of the resolver (Resolver, with pkm's own
versions and specifiers), of names (Names) and of `uninstall` (Install), as package_installation.py ("pi") 60-93 does, through the repository that offers
what is installed (pi 363-411).
-/
namespace Pkm
open Solver Resolver Install

variable {D : Type} [DecidableEq D]

namespace Uninstall

/-- `InstalledPackage` (site_packages.py 132-178) as the resolver sees it: what the site says of it, the name of its metadata, whether it is for the
interpreter (`is_compatible_with`), and the dependencies of its metadata. -/
structure Placed (D : Type) where
  inst : Inst D
  name : Text
  compatible : Bool := true
  deps : List (RDep VSpec)

/-- `installed_package(name)` (site_packages.py 96-97). Names that are not valid have no package here (`ValueError` in the code). -/
def installedPackage (site : List (Placed D)) (name : Text) : Option (Placed D) :=
  match packageNameKey name with
  | none => none
  | some k => site.find? (fun p => p.inst.key = k)

/-- The name of `_UserRequestPackage` (pi 344; normalised by its descriptor). -/
def requestName : Text := "installation-request".toList

/-- The version of `_UserRequestPackage`. -/
def requestVersion : Ver := .std { release := [0] }

/-- `_RemovalPackage` (pi 382-411): depends on what is installed only; `dependencies` of the installed package keeps what applies (site_packages.py 181-184). -/
def removalPackage (site : List (Placed D)) (p : Placed D) : Obj Ver VSpec where
  name := p.name
  version := p.inst.version
  compatible := p.compatible
  dependencies x := some ((p.deps.filter (fun d => d.applies x)).filter (fun d => (installedPackage site d.name).isSome))

/-- `_UserRequestPackage` (pi 342-360). -/
def requestPackage (requests : List (RDep VSpec)) : Obj Ver VSpec where
  name := requestName
  version := requestVersion
  dependencies _ := some requests

/-- `_RemovalRepository.match` (pi 363-379, repository.py 73-79), which does not look at the version; of one package no pre-release is left out
(repository.py 86-90). -/
def removalMatch (site : List (Placed D)) (requests : List (RDep VSpec)) (name : Text) : List (Obj Ver VSpec) :=
  (if name = requestName then [requestPackage requests]
   else match installedPackage site name with
    | some p => [removalPackage site p]
    | none => []).filter (·.compatible)

/-- What `uninstall` gives to the resolver (pi 81-84). -/
def removal (site : List (Placed D)) (requests : List (RDep VSpec)) : Setting Ver VSpec where
  list := removalMatch site requests
  matchUrl n _ := (removalMatch site requests n).head?
  matchVersion n _ _ := !(removalMatch site requests n).isEmpty
  root := { name := requestName, spec := .vmatch requestVersion true }
  overrides := []
  isStandard := Ver.isStd
  isUrl v := match v with | .url _ _ _ => true | _ => false
  eqv := Ver.eqv

/-- The keys of the packages that are resolved; the plan leaves out the request itself (pi 232-235). -/
def keptBy (dep : D → RDep VSpec) (ch : Choices RPkg VSpec) (fuel : Nat) (site : List (Placed D)) (requests : List D) : Option (List Text) :=
  match resolve specifiers (removal site (requests.map dep)) ch fuel with
  | .error _ => none
  | .ok out => some ((out.filter (fun o => decide (o.name ≠ requestName))).filterMap (fun o => packageNameKey o.name))

/-- The name of an installed package. -/
def nameOf (site : List (Placed D)) (key : Text) : Text :=
  match site.find? (fun p => p.inst.key = key) with
  | some p => p.name
  | none => key

/-- `uninstall` (pi 60-93). `none`: an exception. -/
def uninstallFrom (dep : D → RDep VSpec) (ch : Choices RPkg VSpec) (fuel : Nat) (auto : Text → StoreMode) (site : List (Placed D)) (remove : List Text) :
    Option (Dict Text (Inst D) × List Text) :=
  uninstall (keptBy dep ch fuel site) (nameOf site) (fun n => (packageNameKey n).getD []) auto (site.map (·.inst)) remove

end Uninstall
open Uninstall

namespace Spec

/-- The requirement is met by the installed packages if one has its name: that is in a version that it allows (which is everything, one version, or a range
with final ends), and its name is written like that of the package, up to case, `_` and `-`. -/
def MetBy (site : List (Placed D)) (d : RDep VSpec) : Prop :=
  ∀ q, installedPackage site d.name = some q →
    Wanted d.spec ∧ d.spec.allows q.inst.version = true ∧ descriptorName (lower d.name) = descriptorName (lower q.name)

/-- A site whose packages, of standard versions without local label that are no post releases, fit together: what they require, with any extras, and what the
user requested is met, as far as it is installed. -/
structure Fitting (dep : D → RDep VSpec) (site : List (Placed D)) : Prop where
  keys : (site.map (fun p => p.inst.key)).Nodup
  named : ∀ p ∈ site, packageNameKey p.name = some p.inst.key ∧ p.inst.key ≠ requestKey
  versions : ∀ p ∈ site, Offered p.inst.version ∧ p.compatible = true
  deps : ∀ p ∈ site, ∀ d ∈ p.deps, MetBy site d
  requests : ∀ p ∈ site, ∀ r, p.inst.request = some r → (installedPackage site (dep r).name).isSome = true ∧ MetBy site (dep r)

/-- Packages that are needed, with these extras, when the named ones are not requested any more. -/
inductive StillNeeded (dep : D → RDep VSpec) (site : List (Placed D)) (remove : List Text) : Placed D → List Text → Prop where
  | request (p : Placed D) (r : D) (q : Placed D) (hp : p ∈ site) (hr : p.inst.request = some r) (hn : p.name ∉ remove) (ha : (dep r).applies [] = true)
      (hq : installedPackage site (dep r).name = some q) : StillNeeded dep site remove q ((dep r).extras.getD [])
  | dependency (p : Placed D) (x : List Text) (d : RDep VSpec) (q : Placed D) (h : StillNeeded dep site remove p x) (hd : d ∈ p.deps)
      (ha : d.applies x = true) (hq : installedPackage site d.name = some q) : StillNeeded dep site remove q (d.extras.getD [])
  | itself (p : Placed D) (x : List Text) (h : StillNeeded dep site remove p x) : StillNeeded dep site remove p []

end Spec
open Spec

namespace Uninstall

theorem requestName_key : packageNameKey requestName = some requestKey := by decide
theorem requestName_lower : lower requestName = requestName := by decide

theorem installedPackage_lower (site : List (Placed D)) (n : Text) : installedPackage site (lower n) = installedPackage site n := by
  unfold installedPackage; rw [EndToEnd.key_lower]

theorem installedPackage_some {site : List (Placed D)} {n : Text} {q : Placed D} (h : installedPackage site n = some q) :
    q ∈ site ∧ packageNameKey n = some q.inst.key := by
  unfold installedPackage at h
  split at h
  · cases h
  · rename_i k hk
    have := List.find?_some h
    simp only [decide_eq_true_eq] at this
    exact ⟨List.mem_of_find?_eq_some h, by rw [hk, this]⟩

theorem find_key {site : List (Placed D)} (hk : (site.map (fun p => p.inst.key)).Nodup) {p : Placed D} (hp : p ∈ site) :
    site.find? (fun q => q.inst.key = p.inst.key) = some p := by
  cases h : site.find? (fun q => decide (q.inst.key = p.inst.key)) with
  | none => have := List.find?_eq_none.1 h p hp; simp at this
  | some q =>
    have h1 := List.find?_some h
    simp only [decide_eq_true_eq] at h1
    rw [EndToEnd.nodup_map_inj hk (List.mem_of_find?_eq_some h) hp h1]

theorem not_request {dep : D → RDep VSpec} {site : List (Placed D)} (hf : Fitting dep site) {n : Text} {q : Placed D} (h : installedPackage site n = some q) :
    lower n ≠ requestName := by
  intro e
  obtain ⟨h1, h2⟩ := installedPackage_some h
  rw [← EndToEnd.key_lower, e, requestName_key] at h2
  simp at h2
  exact (hf.named q h1).2 h2.symm

/-- What is offered under a name. -/
theorem list_installed {dep : D → RDep VSpec} {site : List (Placed D)} (hf : Fitting dep site) (rs : List (RDep VSpec)) {n : Text} {q : Placed D}
    (h : installedPackage site n = some q) : compatibles (removal site rs) (lower n) = [removalPackage site q] := by
  have h1 := not_request hf h
  have h2 : (removalPackage site q).compatible = true := (hf.versions q (installedPackage_some h).1).2
  simp [compatibles, removal, removalMatch, h1, installedPackage_lower, h, h2, putVersion]

theorem list_request (site : List (Placed D)) (rs : List (RDep VSpec)) : compatibles (removal site rs) requestName = [requestPackage rs] := by
  simp [compatibles, removal, removalMatch, putVersion, requestPackage]

theorem offered_std {v : Ver} (h : Offered v) : v.isStd = true := by obtain ⟨w, rfl, -⟩ := h; rfl

theorem eqv_self (v : Ver) : v.eqv v = true := version_eq_equivalence.1 v

theorem object_installed {dep : D → RDep VSpec} {site : List (Placed D)} (hf : Fitting dep site) (rs : List (RDep VSpec)) {d : RDep VSpec} {q : Placed D}
    (h : installedPackage site d.name = some q) (hm : MetBy site d) : objectOf (removal site rs) (lower d.name) q.inst.version = some (removalPackage site q) := by
  obtain ⟨v, hv, -⟩ := (hf.versions q (installedPackage_some h).1).1
  have hu : (removal site rs).isUrl q.inst.version = false := by rw [hv]; rfl
  unfold objectOf
  rw [hu]
  simp only [Bool.false_eq_true, if_false]
  unfold opened
  rw [list_installed hf rs h]
  have h3 := (hm q h).2.2
  have he : (removal site rs).eqv (removalPackage site q).version q.inst.version = true := eqv_self _
  simp only [List.reverse_cons, List.reverse_nil, List.nil_append, List.find?_cons, he, Bool.true_and]
  have : descriptorName (lower (removalPackage site q).name) = descriptorName (lower d.name) := h3.symm
  simp [this]

theorem object_request (site : List (Placed D)) (rs : List (RDep VSpec)) : objectOf (removal site rs) requestName requestVersion = some (requestPackage rs) := by
  unfold objectOf
  have hu : (removal site rs).isUrl requestVersion = false := rfl
  rw [hu]
  simp only [Bool.false_eq_true, if_false]
  unfold opened
  rw [list_request]
  have he : (removal site rs).eqv (requestPackage rs).version requestVersion = true := eqv_self requestVersion
  have hl : lower (requestPackage rs).name = requestName := requestName_lower
  simp [he, hl]

/-- The requirements that name something that is installed. -/
def mentions (site : List (Placed D)) (rs : List (RDep VSpec)) : List (RDep VSpec) :=
  (rs ++ site.flatMap (·.deps)).filter (fun d => (installedPackage site d.name).isSome)

/-- What the resolver meets. -/
def entries (site : List (Placed D)) (rs : List (RDep VSpec)) : List RPkg :=
  ⟨requestName, none⟩ :: (mentions site rs).flatMap (fun d => [⟨lower d.name, d.extras⟩, ⟨lower d.name, none⟩])

/-- The version that there is. -/
def versionOf (site : List (Placed D)) (p : RPkg) : Ver :=
  if p.name = requestName then requestVersion
  else match installedPackage site p.name with
    | some q => q.inst.version
    | none => requestVersion

theorem versionOf_installed {dep : D → RDep VSpec} {site : List (Placed D)} (hf : Fitting dep site) {n : Text} {q : Placed D} (x : Option (List Text))
    (h : installedPackage site n = some q) : versionOf site ⟨lower n, x⟩ = q.inst.version := by
  simp [versionOf, not_request hf h, installedPackage_lower, h]

theorem mem_entries {site : List (Placed D)} {rs : List (RDep VSpec)} {p : RPkg} : p ∈ entries site rs ↔
    p = ⟨requestName, none⟩ ∨ ∃ d ∈ mentions site rs, p = ⟨lower d.name, d.extras⟩ ∨ p = ⟨lower d.name, none⟩ := by
  simp [entries]

/-- Requirements of requests and installed packages that name something installed are met. -/
theorem mention_met {dep : D → RDep VSpec} {site : List (Placed D)} (hf : Fitting dep site) {rs : List (RDep VSpec)}
    (hr : ∀ r ∈ rs, (installedPackage site r.name).isSome = true ∧ MetBy site r) {d : RDep VSpec} (h : d ∈ mentions site rs) :
    MetBy site d ∧ ∃ q, installedPackage site d.name = some q := by
  obtain ⟨h1, h2⟩ := List.mem_filter.1 h
  refine ⟨?_, Option.isSome_iff_exists.1 h2⟩
  rcases List.mem_append.1 h1 with h1 | h1
  · exact (hr d h1).2
  · obtain ⟨p, hp, hd⟩ := List.mem_flatMap.1 h1
    exact hf.deps p hp d hd

theorem wanted_single {v : Ver} (h : Offered v) : Wanted (specifiers.single v) ∧ (specifiers.single v).allows v = true := by
  obtain ⟨w, rfl, hc⟩ := h
  refine ⟨.one w hc, ?_⟩
  have hl := hc.1.2.2
  simp [specifiers, VSpec.allows, VSpec.matchAllows, Ver.isLocal, SV.isLocal, Ver.withoutLocal, SV.withoutLocal, hl, eqv_self]

theorem requestVersion_offered : Offered requestVersion := by
  refine ⟨{ release := [0] }, rfl, ?_⟩
  refine Greedy.Bare.candidate ⟨?_, rfl, rfl, rfl⟩
  first | decide | exact ⟨rfl, by decide⟩ | simp [Plain]

theorem deps_of {alg : Alg Ver VSpec} {s : Setting Ver VSpec} {p : RPkg} {v : Ver} {o : Obj Ver VSpec} {ds : List (RDep VSpec)}
    (ho : objectOf s p.name v = some o) (hd : o.dependencies (p.extras.getD []) = some ds) : (problem alg s).deps p v = some (termsOf alg s p v ds) := by
  change getDependencies alg s p v = _
  unfold getDependencies
  rw [ho]
  simp only [hd]

theorem mem_termsOf {site : List (Placed D)} {rs : List (RDep VSpec)} {p q : RPkg} {v : Ver} {c : VSpec} {ds : List (RDep VSpec)}
    (h : (q, c) ∈ termsOf specifiers (removal site rs) p v ds) :
    (p.hasExtras = true ∧ q = ⟨p.name, none⟩ ∧ c = specifiers.single v) ∨
    ∃ d ∈ ds, d.applies (p.extras.getD []) = true ∧ q = ⟨lower d.name, d.extras⟩ ∧ c = d.spec := by
  unfold termsOf at h
  rcases List.mem_append.1 h with h | h
  · split at h
    · rename_i hx; simp at h; exact .inl ⟨hx, h⟩
    · cases h
  · obtain ⟨d, hd, he⟩ := List.mem_map.1 h
    obtain ⟨h1, h2⟩ := List.mem_filter.1 hd
    simp only [termOf, removal, Dict.get, pkgOf, Prod.mk.injEq] at he
    exact .inr ⟨d, h1, h2, he.1.symm, he.2.symm⟩

/-- What is installed solves the problem, and there is nothing else to choose. -/
theorem preferred {dep : D → RDep VSpec} {site : List (Placed D)} (hf : Fitting dep site) {rs : List (RDep VSpec)}
    (hr : ∀ r ∈ rs, (installedPackage site r.name).isSome = true ∧ MetBy site r) :
    Preferred (problem specifiers (removal site rs)) (entries site rs) (versionOf site) := by
  have hroot : (problem specifiers (removal site rs)).root = ⟨requestName, none⟩ := by
    change pkgOf _ = _
    simp only [pkgOf, removal, requestName_lower]
  have hvr : versionOf site ⟨requestName, none⟩ = requestVersion := by simp [versionOf]
  have hversR : ∀ x, (problem specifiers (removal site rs)).versions ⟨requestName, x⟩ = [requestVersion] := by
    intro x
    simp only [problem, list_request]
    rfl
  have hversI : ∀ n x q, installedPackage site n = some q → (problem specifiers (removal site rs)).versions ⟨lower n, x⟩ = [q.inst.version] := by
    intro n x q h
    simp only [problem, list_installed hf rs h]
    have : (removal site rs).isStandard (removalPackage site q).version = true := offered_std (hf.versions q (installedPackage_some h).1).1
    rw [List.filter_cons_of_pos (by exact this)]
    rfl
  have hall : ∀ p ∈ entries site rs, (problem specifiers (removal site rs)).versions p = [versionOf site p] ∧ Offered (versionOf site p) := by
    intro p hp
    rcases mem_entries.1 hp with rfl | ⟨d, hd, h⟩
    · rw [hversR, hvr]; exact ⟨rfl, requestVersion_offered⟩
    · obtain ⟨-, q, hq⟩ := mention_met hf hr hd
      rcases h with rfl | rfl <;>
      · rw [hversI _ _ _ hq, versionOf_installed hf _ hq]
        exact ⟨rfl, (hf.versions q (installedPackage_some hq).1).1⟩
  refine ⟨by rw [hroot]; exact mem_entries.2 (.inl rfl), ?_, ?_, ?_, ?_, ?_⟩
  · rw [hroot, hversR, hvr]; rfl
  · intro p hp; rw [(hall p hp).1]; exact List.mem_singleton.2 rfl
  · intro p hp v hv; rw [(hall p hp).1] at hv; rw [List.mem_singleton.1 hv]; exact (hall p hp).2
  · intro p hp; rw [(hall p hp).1]; exact List.pairwise_singleton _ _
  · intro p hp
    have before : ∀ q ∈ entries site rs, ∀ (c : VSpec) u, Before ((problem specifiers (removal site rs)).versions q) u (versionOf site q) →
        c.allows u = false ∨ (problem specifiers (removal site rs)).deps q u = none := by
      rintro q hq c u ⟨a, b, e, h⟩
      rw [(hall q hq).1] at h
      have := congrArg List.length h
      simp at this
      omega
    have done : ∀ q c, q ∈ entries site rs → Wanted c → c.allows (versionOf site q) = true → q ∈ entries site rs ∧ Wanted c ∧ c.allows (versionOf site q) = true ∧
        ((∀ u, Before ((problem specifiers (removal site rs)).versions q) u (versionOf site q) →
          c.allows u = false ∨ (problem specifiers (removal site rs)).deps q u = none) ∨
        ∃ d, Dominates (problem specifiers (removal site rs)) (versionOf site) d p ∧
          DependsOn (problem specifiers (removal site rs)) d (versionOf site d) q) :=
      fun q c h1 h2 h3 => ⟨h1, h2, h3, .inl (before q h1 c)⟩
    have need : ∀ d ∈ mentions site rs, (⟨lower d.name, d.extras⟩ : RPkg) ∈ entries site rs ∧ Wanted d.spec ∧
        d.spec.allows (versionOf site ⟨lower d.name, d.extras⟩) = true := by
      intro d hd
      obtain ⟨hm, q, hq⟩ := mention_met hf hr hd
      obtain ⟨h1, h2, -⟩ := hm q hq
      exact ⟨mem_entries.2 (.inr ⟨d, hd, .inl rfl⟩), h1, by rw [versionOf_installed hf _ hq]; exact h2⟩
    rcases mem_entries.1 hp with rfl | ⟨d, hd, h⟩
    · rw [hvr]
      refine ⟨_, deps_of (object_request site rs) rfl, ?_⟩
      intro q c hq
      rcases mem_termsOf hq with ⟨hx, -⟩ | ⟨d, hd, -, rfl, rfl⟩
      · cases hx
      · obtain ⟨h1, h2, h3⟩ := need d (List.mem_filter.2 ⟨List.mem_append_left _ hd, (hr d hd).1⟩)
        exact done _ _ h1 h2 h3
    · obtain ⟨hm, q, hq⟩ := mention_met hf hr hd
      have hself : (⟨lower d.name, none⟩ : RPkg) ∈ entries site rs := mem_entries.2 (.inr ⟨d, hd, .inr rfl⟩)
      have hin := (installedPackage_some hq).1
      have key : ∀ x, ∃ ds, (problem specifiers (removal site rs)).deps ⟨lower d.name, x⟩ q.inst.version = some ds ∧ ∀ q' c, (q', c) ∈ ds →
          q' ∈ entries site rs ∧ Wanted c ∧ c.allows (versionOf site q') = true := by
        intro x
        refine ⟨_, deps_of (object_installed hf rs hq hm) rfl, ?_⟩
        intro q' c hqc
        rcases mem_termsOf hqc with ⟨-, rfl, rfl⟩ | ⟨e, he, -, rfl, rfl⟩
        · obtain ⟨h1, h2⟩ := wanted_single (hf.versions q hin).1
          exact ⟨hself, h1, by rw [versionOf_installed hf _ hq]; exact h2⟩
        · obtain ⟨he1, he2⟩ := List.mem_filter.1 he
          exact need e (List.mem_filter.2 ⟨List.mem_append_right _ (List.mem_flatMap.2 ⟨q, hin, (List.mem_filter.1 he1).1⟩), he2⟩)
      rcases h with rfl | rfl <;>
      · rw [versionOf_installed hf _ hq]
        obtain ⟨ds, h1, h2⟩ := key _
        exact ⟨ds, h1, fun q' c hqc => done q' c (h2 q' c hqc).1 (h2 q' c hqc).2.1 (h2 q' c hqc).2.2⟩

/-- The requests that remain name installed packages and are met. -/
theorem remaining_met {dep : D → RDep VSpec} {site : List (Placed D)} (hf : Fitting dep site) (remove : List Text) :
    ∀ r ∈ (remainingRequests (nameOf site) (site.map (·.inst)) remove).map dep, (installedPackage site r.name).isSome = true ∧ MetBy site r := by
  intro r hr
  obtain ⟨d, hd, rfl⟩ := List.mem_map.1 hr
  obtain ⟨i, hi, hri⟩ := List.mem_filterMap.1 hd
  obtain ⟨p, hp, rfl⟩ := List.mem_map.1 (List.mem_filter.1 hi).1
  exact hf.requests p hp d hri

theorem nameOf_key {site : List (Placed D)} (hk : (site.map (fun p => p.inst.key)).Nodup) {p : Placed D} (hp : p ∈ site) : nameOf site p.inst.key = p.name := by
  unfold nameOf; rw [find_key hk hp]

theorem mem_remaining {dep : D → RDep VSpec} {site : List (Placed D)} (hf : Fitting dep site) {remove : List Text} {d : RDep VSpec} :
    d ∈ (remainingRequests (nameOf site) (site.map (·.inst)) remove).map dep ↔
      ∃ p r, p ∈ site ∧ p.inst.request = some r ∧ p.name ∉ remove ∧ dep r = d := by
  simp only [remainingRequests, List.mem_map, List.mem_filterMap, List.mem_filter, decide_eq_true_eq]
  constructor
  · rintro ⟨r, ⟨i, ⟨⟨p, hp, rfl⟩, hn⟩, hr⟩, rfl⟩
    rw [nameOf_key hf.keys hp] at hn
    exact ⟨p, r, hp, hr, hn, rfl⟩
  · rintro ⟨p, r, hp, hr, hn, rfl⟩
    exact ⟨r, ⟨p.inst, ⟨⟨p, hp, rfl⟩, by rw [nameOf_key hf.keys hp]; exact hn⟩, hr⟩, rfl⟩

theorem counts_self {site : List (Placed D)} {rs : List (RDep VSpec)} {d e : RDep VSpec} : Counts (removal site rs) d e ↔ e = d := by
  simp [Counts, removal, Dict.get]

/-- What is needed is selected. -/
theorem needed_selected {dep : D → RDep VSpec} {site : List (Placed D)} (hf : Fitting dep site) {remove : List Text} {rs : List (RDep VSpec)}
    (hrs : rs = (remainingRequests (nameOf site) (site.map (·.inst)) remove).map dep) {sol : Dict RPkg Ver}
    (hroot : (⟨requestName, none⟩, requestVersion) ∈ sol)
    (hsat : ∀ p v, (p, v) ∈ sol → ∀ q c, Wants specifiers (removal site rs) p v q c → ∃ w, (q, w) ∈ sol)
    (hv : ∀ p v, (p, v) ∈ sol → v = versionOf site p) {p : Placed D} {x : List Text} (h : StillNeeded dep site remove p x) :
    ∃ d e, MetBy site d ∧ installedPackage site d.name = some p ∧ (⟨lower d.name, e⟩, p.inst.version) ∈ sol ∧ e.getD [] = x := by
  have fin : ∀ (d : RDep VSpec) (q : Placed D), MetBy site d → installedPackage site d.name = some q → (∃ w, (⟨lower d.name, d.extras⟩, w) ∈ sol) →
      ∃ d' e, MetBy site d' ∧ installedPackage site d'.name = some q ∧ (⟨lower d'.name, e⟩, q.inst.version) ∈ sol ∧ e.getD [] = d.extras.getD [] := by
    rintro d q hm hq ⟨w, hw⟩
    have := hv _ _ hw
    rw [versionOf_installed hf _ hq] at this
    subst this
    exact ⟨d, d.extras, hm, hq, hw, rfl⟩
  induction h with
  | request p r q hp hr hn ha hq =>
    have hmem : dep r ∈ rs := by rw [hrs]; exact (mem_remaining hf).2 ⟨p, r, hp, hr, hn, rfl⟩
    exact fin (dep r) q (hf.requests p hp r hr).2 hq
      (hsat _ _ hroot _ _ (.dependency (requestPackage rs) rs (dep r) (dep r) (object_request site rs) rfl hmem ha (counts_self.2 rfl)))
  | dependency p x d q h hd ha hq ih =>
    obtain ⟨d', e, hm, hp, hs, rfl⟩ := ih
    have hin := (installedPackage_some hp).1
    exact fin d q (hf.deps p hin d hd) hq
      (hsat _ _ hs _ _ (.dependency (removalPackage site p) _ d d (object_installed hf rs hp hm) rfl
        (List.mem_filter.2 ⟨List.mem_filter.2 ⟨hd, ha⟩, by rw [hq]; rfl⟩) ha (counts_self.2 rfl)))
  | itself p x h ih =>
    obtain ⟨d', e, hm, hp, hs, rfl⟩ := ih
    cases hx : (⟨lower d'.name, e⟩ : RPkg).hasExtras with
    | false => exact ⟨d', e, hm, hp, hs, EndToEnd.no_extras hx⟩
    | true =>
      obtain ⟨w, hw⟩ := hsat _ _ hs _ _ (.base hx)
      have := hv _ _ hw
      rw [versionOf_installed hf _ hp] at this
      subst this
      exact ⟨d', none, hm, hp, hw, rfl⟩

/-- What is selected is needed. -/
theorem selected_needed {dep : D → RDep VSpec} {site : List (Placed D)} (hf : Fitting dep site) {remove : List Text} {rs : List (RDep VSpec)}
    (hrs : rs = (remainingRequests (nameOf site) (site.map (·.inst)) remove).map dep) {sol : Dict RPkg Ver}
    (hv : ∀ p v, (p, v) ∈ sol → v = versionOf site p) {p : RPkg} (h : Justified specifiers (removal site rs) sol p) :
    p = ⟨requestName, none⟩ ∨ ∃ d q, MetBy site d ∧ installedPackage site d.name = some q ∧ p.name = lower d.name ∧ StillNeeded dep site remove q (p.extras.getD []) := by
  induction h with
  | root => left; simp only [removal, requestName_lower]
  | wanted p v q c hp hpv hw ih =>
    right
    rcases ih with rfl | ⟨d, o, hm, ho, hn, hs⟩
    · cases hw with
      | base hx => cases hx
      | dependency o ds d e hob hds hd ha he =>
        have hve := hv _ _ hpv
        rw [show versionOf site ⟨requestName, none⟩ = requestVersion from by simp [versionOf]] at hve
        subst hve
        rw [object_request] at hob
        simp only [Option.some.injEq] at hob
        subst hob
        simp only [requestPackage, Option.some.injEq] at hds
        subst hds
        rw [counts_self] at he
        subst he
        rw [hrs] at hd
        obtain ⟨p, r, hp, hr, hn, rfl⟩ := (mem_remaining hf).1 hd
        obtain ⟨h1, h2⟩ := hf.requests p hp r hr
        obtain ⟨q, hq⟩ := Option.isSome_iff_exists.1 h1
        exact ⟨dep r, q, h2, hq, rfl, .request p r q hp hr hn ha hq⟩
    · cases hw with
      | base hx => exact ⟨d, o, hm, ho, hn, .itself o _ hs⟩
      | dependency o' ds d' e hob hds hd ha he =>
        have hve := hv _ _ hpv
        obtain ⟨pn, px⟩ := p
        simp only at hn
        subst hn
        rw [versionOf_installed hf _ ho] at hve
        subst hve
        rw [object_installed hf rs ho hm] at hob
        simp only [Option.some.injEq] at hob
        subst hob
        simp only [removalPackage, Option.some.injEq] at hds
        subst hds
        rw [counts_self] at he
        subst he
        obtain ⟨h1, h2⟩ := List.mem_filter.1 hd
        obtain ⟨h3, h4⟩ := List.mem_filter.1 h1
        obtain ⟨q, hq⟩ := Option.isSome_iff_exists.1 h2
        have hin := (installedPackage_some ho).1
        exact ⟨e, q, hf.deps o hin e h3, hq, rfl, .dependency o _ e q hs h3 h4 hq⟩

/-- The packages that are kept are those that are needed. -/
theorem kept_needed {dep : D → RDep VSpec} {site : List (Placed D)} (hf : Fitting dep site) (ch : Choices RPkg VSpec) (remove : List Text) :
    ∃ n, ∀ fuel, n ≤ fuel → ∃ kept, keptBy dep ch fuel site (remainingRequests (nameOf site) (site.map (·.inst)) remove) = some kept ∧
      ∀ k, k ∈ kept ↔ ∃ p ∈ site, p.inst.key = k ∧ StillNeeded dep site remove p [] := by
  generalize hrs : (remainingRequests (nameOf site) (site.map (·.inst)) remove).map dep = rs
  obtain ⟨n, hn⟩ := resolution_found_partial (preferred hf (hrs ▸ remaining_met hf remove)) ch
  refine ⟨n, fun fuel hfu => ?_⟩
  obtain ⟨sol, hsol, ⟨-, ⟨v, hv1, hv2⟩, -, hd⟩, hv⟩ := hn fuel hfu
  have hroot : ((⟨requestName, none⟩ : RPkg), requestVersion) ∈ sol := by
    have e1 : (problem specifiers (removal site rs)).root = ⟨requestName, none⟩ := by
      change pkgOf _ = _
      simp only [pkgOf, removal, requestName_lower]
    rw [e1] at hv2
    have := hv _ _ hv2
    rw [show versionOf site ⟨requestName, none⟩ = requestVersion from by simp [versionOf]] at this
    subst this
    exact hv2
  have hob : ∀ p v, (p, v) ∈ sol → ∃ o, objectOf (removal site rs) p.name v = some o := by
    intro p v hp
    obtain ⟨ts, hts, -⟩ := hd p v hp
    change getDependencies specifiers _ p v = some ts at hts
    unfold getDependencies at hts
    cases ho : objectOf (removal site rs) p.name v with
    | none => rw [ho] at hts; simp at hts
    | some o => exact ⟨o, rfl⟩
  have hsat : ∀ p v, (p, v) ∈ sol → ∀ q c, Wants specifiers (removal site rs) p v q c → ∃ w, (q, w) ∈ sol := by
    intro p v hp q c hw
    obtain ⟨ts, hts, hq⟩ := hd p v hp
    obtain ⟨w, hw, -⟩ := hq q c ((getDependencies_wants hts q c).2 hw)
    exact ⟨w, hw⟩
  obtain ⟨out, hout⟩ := collect_total hob
  have hres : resolve specifiers (removal site rs) ch fuel = .ok out := by unfold resolve; rw [hsol]; exact hout
  refine ⟨_, by unfold keptBy; rw [hrs, hres], ?_⟩
  intro k
  simp only [List.mem_filterMap, List.mem_filter, decide_eq_true_eq]
  constructor
  · rintro ⟨o, ⟨ho, hon⟩, hk⟩
    obtain ⟨p, v, hp, hx, hop⟩ := (EndToEnd.mem_out (collect_ok hout) o).1 ho
    have hve := hv _ _ hp
    rcases selected_needed hf hrs.symm hv (reached_justified (resolution_needed hsol p v hp)) with rfl | ⟨d, q, hm, hq, hn', hs⟩
    · rw [show versionOf site ⟨requestName, none⟩ = requestVersion from by simp [versionOf]] at hve
      subst hve
      rw [object_request] at hop
      simp only [Option.some.injEq] at hop
      subst hop
      exact absurd rfl hon
    · obtain ⟨pn, px⟩ := p
      simp only at hn'
      subst hn'
      rw [versionOf_installed hf _ hq] at hve
      subst hve
      rw [object_installed hf rs hq hm] at hop
      simp only [Option.some.injEq] at hop
      subst hop
      have hin := (installedPackage_some hq).1
      have hk' : packageNameKey q.name = some k := hk
      rw [(hf.named q hin).1] at hk'
      simp only [Option.some.injEq] at hk'
      rw [EndToEnd.no_extras hx] at hs
      exact ⟨q, hin, hk', hs⟩
  · rintro ⟨p, hp, rfl, hs⟩
    obtain ⟨d, e, hm, hq, hsel, he⟩ := needed_selected hf hrs.symm hroot hsat hv hs
    refine ⟨removalPackage site p, ⟨?_, ?_⟩, (hf.named p hp).1⟩
    · exact (EndToEnd.mem_out (collect_ok hout) _).2 ⟨_, _, hsel, by simp [RPkg.hasExtras, he], object_installed hf rs hq hm⟩
    · intro h
      have h' : p.name = requestName := h
      have := (hf.named p hp).1
      rw [h', requestName_key] at this
      simp only [Option.some.injEq] at this
      exact (hf.named p hp).2 this.symm

end Uninstall

/-- C105 for sites that fit together: `uninstall` succeeds, with every order of the steps of the solver; it leaves exactly the packages that the requests
need that remain, in the same versions, and returns the given names of packages that it took away or that were not there. Missing: sites that do not fit
(see `uninstall_blocked_violated`, `uninstall_dotted_violated`), and post releases and local versions. -/
theorem uninstall_exact_partial {dep : D → RDep VSpec} {site : List (Placed D)} (hf : Fitting dep site) (ch : Choices RPkg VSpec) (auto : Text → StoreMode)
    (remove : List Text) :
    ∃ n, ∀ fuel, n ≤ fuel → ∃ after removed, uninstallFrom dep ch fuel auto site remove = some (after, removed) ∧
      (∀ p ∈ site, StillNeeded dep site remove p [] →
        after.get p.inst.key = some (if p.name ∈ remove then { p.inst with request := none } else p.inst)) ∧
      (∀ k i, after.get k = some i → ∃ p ∈ site, p.inst.key = k ∧ StillNeeded dep site remove p []) ∧
      (∀ m, m ∈ removed ↔ m ∈ remove ∧ ∀ p ∈ site, StillNeeded dep site remove p [] → p.name ≠ m) := by
  obtain ⟨n, hn⟩ := kept_needed hf ch remove
  refine ⟨n, fun fuel hfu => ?_⟩
  obtain ⟨kept, hkept, hmem⟩ := hn fuel hfu
  have hk : ((site.map (·.inst)).map Inst.key).Nodup := by rw [List.map_map]; exact hf.keys
  have hname : ∀ i ∈ site.map (·.inst), (packageNameKey (nameOf site i.key)).getD [] = i.key := by
    intro i hi
    obtain ⟨p, hp, rfl⟩ := List.mem_map.1 hi
    rw [nameOf_key hf.keys hp, (hf.named p hp).1]; rfl
  have hin : ∀ k ∈ kept, ∃ i ∈ site.map (·.inst), i.key = k := by
    intro k hk
    obtain ⟨p, hp, rfl, -⟩ := (hmem k).1 hk
    exact ⟨p.inst, List.mem_map.2 ⟨p, hp, rfl⟩, rfl⟩
  unfold uninstallFrom
  generalize keptBy dep ch fuel site = K at hkept ⊢
  obtain ⟨after, removed, h1, h2, h3, h4⟩ := uninstall_keeps K (nameOf site) (fun n => (packageNameKey n).getD []) auto
    (site.map (·.inst)) remove kept hk hname hkept hin
  refine ⟨after, removed, h1, ?_, ?_, ?_⟩
  · intro p hp hs
    have := h3 p.inst (List.mem_map.2 ⟨p, hp, rfl⟩) ((hmem _).2 ⟨p, hp, rfl, hs⟩)
    rw [nameOf_key hf.keys hp] at this
    exact this
  · intro k i hi
    by_cases hk : k ∈ kept
    · exact (hmem k).1 hk
    · rw [h2 k hk] at hi; cases hi
  · intro m
    rw [h4 m]
    constructor
    · rintro ⟨hm, h⟩
      refine ⟨hm, fun p hp hs => ?_⟩
      have := h _ ((hmem _).2 ⟨p, hp, rfl, hs⟩)
      rwa [nameOf_key hf.keys hp] at this
    · rintro ⟨hm, h⟩
      refine ⟨hm, fun k hk => ?_⟩
      obtain ⟨p, hp, rfl, hs⟩ := (hmem k).1 hk
      rw [nameOf_key hf.keys hp]
      exact h p hp hs

/-- C105 for sites that fit together: what stays is not broken. Everything that a needed package requires, with the extras with which it is needed, and that
was installed before, is installed afterwards in a version that it allows; so is what the user requested and did not name. -/
theorem uninstall_unbroken_partial {dep : D → RDep VSpec} {site : List (Placed D)} (hf : Fitting dep site) (ch : Choices RPkg VSpec) (auto : Text → StoreMode)
    (remove : List Text) :
    ∃ n, ∀ fuel, n ≤ fuel → ∃ after removed, uninstallFrom dep ch fuel auto site remove = some (after, removed) ∧
      (∀ p x, StillNeeded dep site remove p x → ∀ d ∈ p.deps, d.applies x = true → ∀ q, installedPackage site d.name = some q →
        ∃ i, packageNameKey d.name = some i.key ∧ after.get i.key = some i ∧ d.spec.allows i.version = true) ∧
      (∀ p ∈ site, ∀ r, p.inst.request = some r → p.name ∉ remove → (dep r).applies [] = true →
        ∃ i, packageNameKey (dep r).name = some i.key ∧ after.get i.key = some i ∧ (dep r).spec.allows i.version = true) := by
  obtain ⟨n, hn⟩ := uninstall_exact_partial hf ch auto remove
  refine ⟨n, fun fuel hfu => ?_⟩
  obtain ⟨after, removed, h1, h2, -, -⟩ := hn fuel hfu
  have key : ∀ (d : RDep VSpec) (q : Placed D) x, StillNeeded dep site remove q x → MetBy site d → installedPackage site d.name = some q →
      ∃ i, packageNameKey d.name = some i.key ∧ after.get i.key = some i ∧ d.spec.allows i.version = true := by
    intro d q x hs hm hq
    obtain ⟨hin, hk⟩ := installedPackage_some hq
    have hg := h2 q hin (.itself q x hs)
    have ha := (hm q hq).2.1
    by_cases hr : q.name ∈ remove
    · rw [if_pos hr] at hg
      exact ⟨{ q.inst with request := none }, hk, hg, ha⟩
    · rw [if_neg hr] at hg
      exact ⟨q.inst, hk, hg, ha⟩
  refine ⟨after, removed, h1, ?_, ?_⟩
  · intro p x hs d hd ha q hq
    have hin : p ∈ site := by
      cases hs with
      | request p' r q hp hr hn ha hq => exact (installedPackage_some hq).1
      | dependency p' x' d' q h hd ha hq => exact (installedPackage_some hq).1
      | itself _ x h =>
        clear hd
        induction h with
        | request p' r q hp hr hn ha hq => exact (installedPackage_some hq).1
        | dependency p' x' d' q h hd ha hq ih => exact (installedPackage_some hq).1
        | itself p x h ih => exact ih
    exact key d q _ (.dependency p x d q hs hd ha hq) (hf.deps p hin d hd) hq
  · intro p hp r hr hn ha
    obtain ⟨h3, h4⟩ := hf.requests p hp r hr
    obtain ⟨q, hq⟩ := Option.isSome_iff_exists.1 h3
    exact key (dep r) q _ (.request p r q hp hr hn ha hq) h4 hq

/-! ## Examples -/

namespace UninstallExample

def requests (n : Nat) : RDep VSpec := { name := [Char.ofNat n], spec := .all }

/-- a, which the user requested, requires b with extra x; b requires c, which is there, for x; e, requested too, requires C below 2, and f, which is not there. -/
def site : List (Placed Nat) :=
  [⟨⟨['a'], ResolverExample.ver 1, .copy, some 97⟩, ['a'], true, [{ name := ['b'], spec := .all, extras := some [['x']] }]⟩,
   ⟨⟨['b'], ResolverExample.ver 2, .copy, none⟩, ['b'], true, [{ name := ['g'], spec := .all, applies := fun x => decide (['x'] ∈ x) }]⟩,
   ⟨⟨['g'], ResolverExample.ver 2, .copy, none⟩, ['g'], true, []⟩,
   ⟨⟨['c'], ResolverExample.ver 1, .copy, some 99⟩, ['c'], true, []⟩,
   ⟨⟨['e'], ResolverExample.ver 0, .copy, some 101⟩, ['e'], true, [{ name := ['C'], spec := ResolverExample.lt 2 }, { name := ['f'], spec := .all }]⟩]

/-- The same with c in version 2, which e does not allow. -/
def broken : List (Placed Nat) :=
  [⟨⟨['a'], ResolverExample.ver 1, .copy, some 97⟩, ['a'], true, []⟩,
   ⟨⟨['c'], ResolverExample.ver 2, .copy, none⟩, ['c'], true, []⟩,
   ⟨⟨['e'], ResolverExample.ver 0, .copy, some 101⟩, ['e'], true, [{ name := ['C'], spec := ResolverExample.lt 2 }]⟩]

/-- a requires z-i, which is installed under the name z.i. -/
def dotted : List (Placed Nat) :=
  [⟨⟨['a'], ResolverExample.ver 1, .copy, some 97⟩, ['a'], true, [{ name := ['z', '-', 'i'], spec := .all }]⟩,
   ⟨⟨['z', '_', 'i'], ResolverExample.ver 1, .copy, none⟩, ['z', '.', 'i'], true, []⟩,
   ⟨⟨['c'], ResolverExample.ver 1, .copy, some 99⟩, ['c'], true, []⟩]

def plainChoices : Choices RPkg VSpec := ⟨fun _ _ => 0, fun _ l => l⟩

theorem offered_ver (n : Nat) : Offered (ResolverExample.ver n) := ⟨_, rfl, Greedy.Bare.candidate (SolverExample.ver_bare n)⟩

theorem found {n : Text} {q : Placed Nat} (h : installedPackage site n = some q) : q ∈ site ∧ packageNameKey n = some q.inst.key := installedPackage_some h

theorem fitting : Fitting requests site where
  keys := by decide
  named := by decide
  versions p hp := by
    simp only [site, List.mem_cons, List.not_mem_nil, or_false] at hp
    rcases hp with rfl | rfl | rfl | rfl | rfl <;> exact ⟨offered_ver _, rfl⟩
  deps p hp d hd q hq := by
    simp only [site, List.mem_cons, List.not_mem_nil, or_false] at hp
    obtain ⟨h1, h2⟩ := found hq
    rcases hp with rfl | rfl | rfl | rfl | rfl <;> simp only [List.mem_cons, List.not_mem_nil, or_false] at hd
    · subst hd
      refine ⟨.all, rfl, ?_⟩
      simp only [site, List.mem_cons, List.not_mem_nil, or_false] at h1
      rcases h1 with rfl | rfl | rfl | rfl | rfl <;> revert h2 <;> decide
    · subst hd
      refine ⟨.all, rfl, ?_⟩
      simp only [site, List.mem_cons, List.not_mem_nil, or_false] at h1
      rcases h1 with rfl | rfl | rfl | rfl | rfl <;> revert h2 <;> decide
    · rcases hd with rfl | rfl
      · refine ⟨SolverExample.lt_wanted 2, ?_⟩
        simp only [site, List.mem_cons, List.not_mem_nil, or_false] at h1
        rcases h1 with rfl | rfl | rfl | rfl | rfl <;> revert h2 <;> decide
      · simp only [site, List.mem_cons, List.not_mem_nil, or_false] at h1
        rcases h1 with rfl | rfl | rfl | rfl | rfl <;> exact absurd h2 (by decide)
  requests p hp r hr := by
    simp only [site, List.mem_cons, List.not_mem_nil, or_false] at hp
    have key : ∀ n, n = 97 ∨ n = 99 ∨ n = 101 → (installedPackage site (requests n).name).isSome = true ∧ MetBy site (requests n) := by
      intro n hn
      refine ⟨by rcases hn with rfl | rfl | rfl <;> decide, fun q hq => ⟨.all, rfl, ?_⟩⟩
      obtain ⟨h1, h2⟩ := found hq
      simp only [site, List.mem_cons, List.not_mem_nil, or_false] at h1
      rcases hn with rfl | rfl | rfl <;> rcases h1 with rfl | rfl | rfl | rfl | rfl <;> revert h2 <;> decide
    rcases hp with rfl | rfl | rfl | rfl | rfl <;> simp only [Option.some.injEq, reduceCtorEq] at hr <;> subst hr <;> exact key _ (by decide)

/-- Without a and c: c is needed by e, though it is named; a, b and g go. -/
theorem c_needed : ∃ p ∈ site, p.name = ['c'] ∧ StillNeeded requests site [['a'], ['c']] p [] :=
  ⟨⟨⟨['c'], ResolverExample.ver 1, .copy, some 99⟩, ['c'], true, []⟩, by simp [site], rfl,
    .dependency _ [] _ _ (.request (dep := requests) (site := site) (remove := [['a'], ['c']]) _ 101 _ (List.mem_cons_of_mem _ (List.mem_cons_of_mem _ (List.mem_cons_of_mem _ (List.mem_cons_of_mem _ List.mem_cons_self)))) rfl (by decide) rfl rfl)
      (List.mem_cons_self) rfl rfl⟩

end UninstallExample

example : (uninstallFrom UninstallExample.requests UninstallExample.plainChoices 60 (fun _ => .copy) UninstallExample.site [['a'], ['c']]).map
    (fun r => (r.1.map (fun e => (e.1, e.2.request)), r.2)) = some ([(['c'], none), (['e'], some 101)], [['a']]) := by decide +kernel

/-- C105 fails where packages that stay do not fit already: nothing can be uninstalled then, not even a package that nobody else needs. -/
theorem uninstall_blocked_violated :
    resolve specifiers (removal UninstallExample.broken [UninstallExample.requests 101]) UninstallExample.plainChoices 60 matches .error (.solver .unsolvable) ∧
    uninstallFrom UninstallExample.requests UninstallExample.plainChoices 60 (fun _ => .copy) UninstallExample.broken [['a']] = none := by
  decide +kernel

/-- C105 fails where a requirement writes `-` or `_` and the installed package `.` (`zope-interface`, `zope.interface`): the site counts them as one name, the
resolver does not (dr 78, 108: `KeyError`), and nothing can be uninstalled. -/
theorem uninstall_dotted_violated :
    (∃ q, installedPackage UninstallExample.dotted ['z', '-', 'i'] = some q ∧ q.name = ['z', '.', 'i']) ∧
    uninstallFrom UninstallExample.requests UninstallExample.plainChoices 60 (fun _ => .copy) UninstallExample.dotted [['c']] = none :=
  ⟨⟨_, rfl, rfl⟩, by decide +kernel⟩

end Pkm
