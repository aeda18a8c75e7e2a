import Verif.Display.Environment
set_option linter.unusedVariables false
set_option linter.unusedSimpArgs false
set_option linter.unusedSectionVars false
/-
Properties of the report about an environment (C110).
-/
namespace Pkm
open Reports

namespace Spec

/-- A site has one package for every name. -/
def OneEach (site : List Installed) : Prop := (site.map (·.key)).Nodup

instance (site : List Installed) : Decidable (OneEach site) := inferInstanceAs (Decidable (site.map (·.key)).Nodup)

/-- `q` requires `p`: one of its dependencies has the name. -/
def Requires (q p : Installed) : Prop := ∃ d ∈ q.deps, d.key = p.key

/-- An installed package meets a dependency. -/
def Meets (p : Installed) (d : Dep) : Prop := p.key = d.key ∧ d.allows p.version = true

end Spec
open Spec

namespace Reports
open Install

theorem dictBy_append {V : Type} (key : V → Text) : ∀ (xs : List V) (d : Dict Text V),
    (xs.map key).Nodup → (∀ x ∈ xs, d.get (key x) = none) →
    Dict.values (xs.foldl (fun d x => d.put (key x) x) d) = Dict.values d ++ xs
  | [], d, _, _ => by simp
  | x :: xs, d, hn, h => by
    rw [List.map_cons, List.nodup_cons] at hn
    rw [List.foldl_cons, dictBy_append key xs _ hn.2]
    · have : Dict.values (d.put (key x) x) = Dict.values d ++ [x] := by
        have h0 := h x (by simp)
        clear h hn
        induction d with
        | nil => rfl
        | cons p d ih =>
          by_cases hp : p.1 = key x
          · simp [Dict.get, hp] at h0
          · simp [Dict.get, hp] at h0
            simp [Dict.put, hp, Dict.values] at ih ⊢
            exact ih h0
      simp [this]
    · intro y hy
      rw [Dict.get_put, if_neg]
      · exact h y (by simp [hy])
      · intro e
        exact hn.1 (e ▸ List.mem_map.2 ⟨y, hy, rfl⟩)

theorem dictBy_values {V : Type} (key : V → Text) (xs : List V) (h : (xs.map key).Nodup) : Dict.values (dictBy key xs) = xs := by
  have := dictBy_append key xs [] h (by simp [Dict.get])
  simpa [dictBy, Dict.values] using this

theorem in_containers (site : List Installed) (p : Installed) (h : OneEach site) (hp : p ∈ site) :
    Dict.has (containers site) p.key = p.container := by
  have hinj : ∀ q ∈ site, q.key = p.key → q = p := by
    intro q hq e
    have := h
    unfold OneEach at this
    exact inj_of_nodup site this q hq p hp e
  unfold containers Dict.has
  cases hc : p.container with
  | true =>
    obtain ⟨y, hy⟩ := dictBy_get_isSome Installed.key (site.filter (·.container)) p (List.mem_filter.2 ⟨hp, hc⟩)
    rw [hy]; rfl
  | false =>
    have : (dictBy Installed.key (site.filter (·.container))).get p.key = none := by
      rw [dictBy_get_none]
      intro q hq e
      rw [List.mem_filter] at hq
      have := hinj q hq.1 e
      subst this
      rw [hc] at hq
      exact absurd hq.2 (by simp)
    rw [this]; rfl
where
  inj_of_nodup (l : List Installed) (h : (l.map (·.key)).Nodup) : ∀ q ∈ l, ∀ p ∈ l, q.key = p.key → q = p := by
    induction l with
    | nil => simp
    | cons x l ih =>
      rw [List.map_cons, List.nodup_cons] at h
      intro q hq p hp e
      rcases List.mem_cons.1 hq with hq' | hq' <;> rcases List.mem_cons.1 hp with hp' | hp'
      · rw [hq', hp']
      · subst hq'; exact absurd (e ▸ List.mem_map.2 ⟨p, hp', rfl⟩) h.1
      · subst hp'; exact absurd (e ▸ List.mem_map.2 ⟨q, hq', rfl⟩) h.1
      · exact ih h.2 q hq' p hp' e

/-- The packages that are no containers. -/
def plain (site : List Installed) : List Installed := site.filter (fun p => !p.container)

theorem nodup_filter {site : List Installed} (h : OneEach site) (f : Installed → Bool) : ((site.filter f).map (·.key)).Nodup :=
  List.Nodup.sublist (List.Sublist.map _ List.filter_sublist) h

theorem packages_eq (site : List Installed) (h : OneEach site) : packages site = (plain site).map (fun p => { pkg := p }) := by
  unfold packages plain
  rw [dictBy_values _ _ (nodup_filter h _)]
  congr 1
  apply List.filter_congr
  intro p hp
  rw [in_containers site p h hp]

/-- An entry after dependencies were visited, for the names in `keys`. -/
def after (keys : List Text) (ps : List (Installed × Dep)) (i : PkgInfo) : PkgInfo :=
  { i with
    requiredBy := i.requiredBy ++ (ps.filter (fun x => decide (x.2.key = i.pkg.key))).map (·.1)
    missing := i.missing ++ (ps.filter (fun x => decide (x.1.key = i.pkg.key) && !keys.contains x.2.key)).map (·.2) }

theorem visit_eq (is : List PkgInfo) (p : Installed) (d : Dep) :
    visit is p d = is.map (after (is.map (·.pkg.key)) [(p, d)]) := by
  unfold visit
  cases hf : is.find? (fun i => i.pkg.key == d.key) with
  | some j =>
    have hm : d.key ∈ is.map (·.pkg.key) := by
      have h1 : j.pkg.key = d.key := by simpa using List.find?_some hf
      exact h1 ▸ List.mem_map.2 ⟨j, List.mem_of_find?_eq_some hf, rfl⟩
    simp only [change]
    apply List.map_congr_left
    intro i hi
    have hc : (is.map (·.pkg.key)).contains d.key = true := by simpa using hm
    by_cases he : i.pkg.key = d.key
    · rw [if_pos he]
      simp only [after, he, List.filter_cons, List.filter_nil, hc]
      simp
    · have he' : ¬ d.key = i.pkg.key := fun h => he h.symm
      rw [if_neg he]
      simp only [after, he', List.filter_cons, List.filter_nil, hc]
      simp
  | none =>
    have hm : d.key ∉ is.map (·.pkg.key) := by
      intro h
      obtain ⟨i, hi, e⟩ := List.mem_map.1 h
      rw [List.find?_eq_none] at hf
      exact hf i hi (by simp [e])
    simp only [change]
    apply List.map_congr_left
    intro i hi
    have hc : (is.map (·.pkg.key)).contains d.key = false := by simpa using hm
    have hd : ¬ d.key = i.pkg.key := fun h => hm (h ▸ List.mem_map.2 ⟨i, hi, rfl⟩)
    by_cases he : i.pkg.key = p.key
    · rw [if_pos he]
      simp only [after, hd, he, List.filter_cons, List.filter_nil, hc]
      have : ¬ d.key = p.key := fun h => hd (h.trans he.symm)
      simp [this]
    · have he' : ¬ p.key = i.pkg.key := fun h => he h.symm
      rw [if_neg he]
      simp only [after, hd, he', List.filter_cons, List.filter_nil, hc]
      simp

theorem after_nil (keys : List Text) (i : PkgInfo) : after keys [] i = i := by simp [after]

theorem after_append (keys : List Text) (ps qs : List (Installed × Dep)) (i : PkgInfo) :
    after keys qs (after keys ps i) = after keys (ps ++ qs) i := by
  simp [after, List.filter_append, List.append_assoc]

theorem after_key (keys : List Text) (ps : List (Installed × Dep)) (is : List PkgInfo) :
    (is.map (after keys ps)).map (·.pkg.key) = is.map (·.pkg.key) := by
  rw [List.map_map]
  rfl

theorem visits_eq (p : Installed) : ∀ (ds : List Dep) (is : List PkgInfo),
    ds.foldl (fun is d => visit is p d) is = is.map (after (is.map (·.pkg.key)) (ds.map (fun d => (p, d))))
  | [], is => by
    have : after (is.map (·.pkg.key)) ([].map (fun d => (p, d))) = id := funext (fun i => after_nil _ i)
    rw [this, List.map_id]
    rfl
  | d :: ds, is => by
    rw [List.foldl_cons, visits_eq p ds, visit_eq, after_key, List.map_map]
    apply List.map_congr_left
    intro i _
    rw [Function.comp, after_append]
    rfl

theorem visitAll_eq : ∀ (ps : List Installed) (is : List PkgInfo),
    visitAll is ps = is.map (after (is.map (·.pkg.key)) (ps.flatMap (fun p => p.deps.map (fun d => (p, d)))))
  | [], is => by
    have : after (is.map (·.pkg.key)) ([].flatMap (fun p : Installed => p.deps.map (fun d => (p, d)))) = id := funext (fun i => after_nil _ i)
    rw [this, List.map_id]
    rfl
  | p :: ps, is => by
    have ih := visitAll_eq ps (p.deps.foldl (fun is d => visit is p d) is)
    unfold visitAll at ih ⊢
    rw [List.foldl_cons, ih, visits_eq, after_key, List.map_map]
    apply List.map_congr_left
    intro i _
    rw [Function.comp, after_append]
    rfl

/-- The entries of the report. -/
theorem infos_eq (site : List Installed) (h : OneEach site) :
    infos site = (plain site).map (fun p =>
      after ((plain site).map (·.key)) ((plain site).flatMap (fun p => p.deps.map (fun d => (p, d)))) { pkg := p }) := by
  unfold infos
  have h1 : (packages site).map (·.pkg) = plain site := by
    rw [packages_eq site h, List.map_map]
    exact List.map_id' _
  have h2 : (packages site).map (·.pkg.key) = (plain site).map (·.key) := by
    rw [packages_eq site h, List.map_map]
    rfl
  rw [visitAll_eq, h1, h2, packages_eq site h, List.map_map]
  rfl

theorem mem_infos {site : List Installed} (h : OneEach site) {i : PkgInfo} (hi : i ∈ infos site) :
    (i.pkg ∈ site ∧ i.pkg.container = false) ∧
    (∀ q, q ∈ i.requiredBy ↔ q ∈ site ∧ q.container = false ∧ Requires q i.pkg) ∧
    (∀ d, d ∈ i.missing ↔ d ∈ i.pkg.deps ∧ ∀ q ∈ site, q.container = false → q.key ≠ d.key) := by
  rw [infos_eq site h] at hi
  obtain ⟨p, hp, rfl⟩ := List.mem_map.1 hi
  have hp' := hp
  unfold plain at hp'
  rw [List.mem_filter] at hp'
  refine ⟨⟨hp'.1, (by simpa using hp'.2 : p.container = false)⟩, ?_, ?_⟩
  · intro q
    simp only [after, List.nil_append, List.mem_map, List.mem_filter, List.mem_flatMap, decide_eq_true_eq, plain, Requires]
    constructor
    · rintro ⟨⟨a, d⟩, ⟨⟨b, ⟨hb, hc⟩, d', hd', e⟩, hk⟩, rfl⟩
      cases e
      exact ⟨hb, by simpa using hc, d, hd', hk⟩
    · rintro ⟨hq, hc, d, hd, hk⟩
      exact ⟨(q, d), ⟨⟨q, ⟨hq, by simpa using hc⟩, d, hd, rfl⟩, hk⟩, rfl⟩
  · intro d
    simp only [after, List.nil_append, List.mem_map, List.mem_filter, List.mem_flatMap, Bool.and_eq_true, decide_eq_true_eq]
    constructor
    · rintro ⟨⟨a, d'⟩, ⟨⟨b, hb, d'', hd, e⟩, hk, hn⟩, rfl⟩
      cases e
      have hba : a = p := by
        refine in_containers.inj_of_nodup site h a ?_ p hp'.1 hk
        exact (List.mem_filter.1 hb).1
      subst hba
      refine ⟨hd, ?_⟩
      intro q hq hc e
      simp only [Bool.not_eq_true', List.contains_eq_mem, decide_eq_false_iff_not] at hn
      exact hn (List.mem_map.2 ⟨q, List.mem_filter.2 ⟨hq, by simp [hc]⟩, e⟩)
    · rintro ⟨hd, hn⟩
      refine ⟨(p, d), ⟨⟨p, hp, d, hd, rfl⟩, rfl, ?_⟩, rfl⟩
      simp only [Bool.not_eq_true', List.contains_eq_mem, decide_eq_false_iff_not]
      intro hm
      obtain ⟨q, hq, e⟩ := List.mem_map.1 hm
      rw [plain, List.mem_filter] at hq
      exact hn q hq.1 (by simpa using hq.2) e

end Reports

/-- C110: the report lists exactly the packages of the environment that are no containers, each once and in the order of
the site: all of them, or those that the user requested. -/
theorem report_lists (all : Bool) (site : List Installed) (h : OneEach site) :
    (toShow all site).map (·.pkg) = site.filter (fun p => !p.container && (all || p.request.isSome)) := by
  unfold toShow
  rw [infos_eq site h, List.filter_map, List.map_map]
  have e1 : ((fun i : PkgInfo => all || i.pkg.request.isSome) ∘ (fun p =>
      after ((plain site).map (·.key)) ((plain site).flatMap (fun p => p.deps.map (fun d => (p, d)))) { pkg := p })) =
      (fun p => all || p.request.isSome) := rfl
  have e2 : ((fun i : PkgInfo => i.pkg) ∘ (fun p =>
      after ((plain site).map (·.key)) ((plain site).flatMap (fun p => p.deps.map (fun d => (p, d)))) { pkg := p })) = id := rfl
  rw [e1, e2, List.map_id, plain, List.filter_filter]
  apply List.filter_congr
  intro p _
  exact Bool.and_comm _ _

/-- C110: what the report says about a package is so: it names the user's request; else the packages that require it,
exactly these, and calls it an orphan exactly if there are none. Containers do not count. -/
theorem report_reason_partial (all : Bool) (site : List Installed) (h : OneEach site) (i : PkgInfo) (hi : i ∈ toShow all site) :
    (∀ r, i.pkg.request = some r → reason i = t!"required by the user (" ++ (r ++ t!")")) ∧
    (i.pkg.request = none → (∀ q, q ∈ i.requiredBy ↔ q ∈ site ∧ q.container = false ∧ Requires q i.pkg) ∧
      (reason i = t!"(orphan)" ↔ ∀ q ∈ site, q.container = false → ¬ Requires q i.pkg) ∧
      ((∃ q ∈ site, q.container = false ∧ Requires q i.pkg) →
        reason i = t!"required by: " ++ commas (i.requiredBy.map (·.name)))) := by
  have hm := mem_infos h (List.mem_filter.1 hi).1
  refine ⟨fun r hr => by simp [reason, hr], fun hr => ⟨hm.2.1, ?_, ?_⟩⟩
  · constructor
    · intro ho q hq hc hreq
      have : q ∈ i.requiredBy := (hm.2.1 q).2 ⟨hq, hc, hreq⟩
      unfold reason at ho
      rw [hr] at ho
      cases hb : i.requiredBy with
      | nil => rw [hb] at this; simp at this
      | cons x xs =>
        rw [hb] at ho
        simp at ho
    · intro hno
      have : i.requiredBy = [] := by
        cases hb : i.requiredBy with
        | nil => rfl
        | cons x xs =>
          have hx := (hm.2.1 x).1 (by simp [hb])
          exact absurd hx.2.2 (hno x hx.1 hx.2.1)
      simp [reason, hr, this]
  · rintro ⟨q, hq, hc, hreq⟩
    have : q ∈ i.requiredBy := (hm.2.1 q).2 ⟨hq, hc, hreq⟩
    unfold reason
    rw [hr]
    cases hb : i.requiredBy with
    | nil => rw [hb] at this; simp at this
    | cons x xs => rfl

/-- C110: the dependencies that are reported as missing are exactly those for which no package of the name is installed,
containers left aside. Missing from the full claim: versions (`report_version_violated`) and containers
(`report_container_violated`). -/
theorem report_missing_partial (all : Bool) (site : List Installed) (h : OneEach site) (i : PkgInfo) (hi : i ∈ toShow all site)
    (d : Dep) : d ∈ i.missing ↔ d ∈ i.pkg.deps ∧ ∀ q ∈ site, q.container = false → q.key ≠ d.key :=
  (mem_infos h (List.mem_filter.1 hi).1).2.2 d

/-- C110: without containers, a dependency that is reported as missing is not met by any installed package. -/
theorem report_missing_unmet (all : Bool) (site : List Installed) (h : OneEach site) (hc : ∀ q ∈ site, q.container = false)
    (i : PkgInfo) (hi : i ∈ toShow all site) (d : Dep) (hd : d ∈ i.missing) : ∀ q ∈ site, ¬ Meets q d :=
  fun q hq hm => ((report_missing_partial all site h i hi d).1 hd).2 q hq (hc q hq) hm.1

/-- C110: the lines of a package: its name, version and reason, and a warning with every missing dependency. -/
theorem report_lines (i : PkgInfo) :
    lines i = (t!" + " ++ i.pkg.name ++ t!" " ++ i.pkg.version ++ t!", " ++ reason i) ::
      if i.missing = [] then [] else t!"* WARNING: this package has missing dependencies: " :: i.missing.map (fun d => t!"  - " ++ d.text) := by
  unfold lines
  cases i.missing with
  | nil => simp
  | cons d ds => simp

/-- C110: the section has one line that begins with a plus sign for each of the listed packages, in the order of the site,
with its name, its version and a reason. -/
theorem report_section (all : Bool) (site : List Installed) (h : OneEach site) : ∃ why : Installed → Text,
    (section_ all site).filter (fun l => t!" +".isPrefixOf l) =
      (site.filter (fun p => !p.container && (all || p.request.isSome))).map
        (fun p => t!" + " ++ p.name ++ t!" " ++ p.version ++ t!", " ++ why p) := by
  have one : ∀ i : PkgInfo, (lines i).filter (fun l => t!" +".isPrefixOf l) =
      [t!" + " ++ i.pkg.name ++ t!" " ++ i.pkg.version ++ t!", " ++ reason i] := by
    intro i
    rw [report_lines, List.filter_cons, if_pos (by simp [List.isPrefixOf])]
    congr 1
    split
    · rfl
    · rw [List.filter_cons, if_neg (by simp [List.isPrefixOf]), List.filter_eq_nil_iff]
      intro l hl
      obtain ⟨d, _, rfl⟩ := List.mem_map.1 hl
      simp [List.isPrefixOf]
  have flat : ∀ is : List PkgInfo, (is.flatMap lines).filter (fun l => t!" +".isPrefixOf l) =
      is.map (fun i => t!" + " ++ i.pkg.name ++ t!" " ++ i.pkg.version ++ t!", " ++ reason i) := by
    intro is
    induction is with
    | nil => rfl
    | cons i is ih => rw [List.flatMap_cons, List.filter_append, one, ih]; rfl
  refine ⟨fun p => reason (after ((plain site).map (·.key)) ((plain site).flatMap (fun p => p.deps.map (fun d => (p, d)))) { pkg := p }), ?_⟩
  unfold section_
  rw [flat, ← report_lists all site h, List.map_map]
  refine List.map_congr_left fun i hi => ?_
  have hi' := (List.mem_filter.1 hi).1
  rw [infos_eq site h] at hi'
  obtain ⟨p, _, rfl⟩ := List.mem_map.1 hi'
  rfl

namespace Reports
open Install

theorem graph_get (site : List Installed) (k : Text) (g : GNode) (h : Dict.get (graphOf site) k = some g) :
    ∃ p ∈ site, p.key = k ∧ g.requested = p.request.isSome ∧
      g.deps = p.deps.map (fun d => (d.key, true)) ++ p.otherDeps.map (fun k => (k, false)) := by
  have := Dict.get_mem _ _ _ h
  unfold graphOf at this
  obtain ⟨p, hp, e⟩ := List.mem_map.1 this
  cases e
  exact ⟨p, hp, rfl, rfl, rfl⟩

end Reports

/-- C110: what the report calls an orphan is not needed (so it goes when something is uninstalled), if there are no
containers and all dependencies apply to the environment. -/
theorem report_orphan_partial (all : Bool) (site : List Installed) (h : OneEach site) (hc : ∀ q ∈ site, q.container = false)
    (ha : ∀ q ∈ site, q.otherDeps = []) (i : PkgInfo) (hi : i ∈ toShow all site) (hr : i.pkg.request = none)
    (ho : reason i = t!"(orphan)") : ¬ Needed (graphOf site) i.pkg.key := by
  have hno := ((report_reason_partial all site h i hi).2 hr).2.1.1 ho
  have hmem := (mem_infos h (List.mem_filter.1 hi).1).1
  intro hn
  cases hn with
  | requested hg hreq =>
    obtain ⟨p, hp, hk, he, _⟩ := graph_get site _ _ hg
    have : p = i.pkg := in_containers.inj_of_nodup site h p hp _ hmem.1 hk
    subst this
    rw [hr] at he
    rw [he] at hreq
    exact absurd hreq (by simp)
  | dependency hk hg hd hq =>
    obtain ⟨p, hp, hk, _, he⟩ := graph_get site _ _ hg
    rw [he, ha p hp] at hd
    simp at hd
    obtain ⟨d, hd, e⟩ := hd
    exact hno p hp (hc p hp) ⟨d, hd, e.1⟩

/-! ### Violations and examples -/

namespace ReportExample

def dep (k : Text) : Dep := ⟨k, k, fun _ => true⟩

def a : Installed := { key := t!"a", name := t!"A", version := t!"1", request := some t!"A>=1", deps := [dep t!"b", dep t!"c"] }
def b : Installed := { key := t!"b", name := t!"b", version := t!"2", request := none }
def x : Installed := { key := t!"x", name := t!"x", version := t!"3", request := none }

example : section_ true [a, b, x] = [t!" + A 1, required by the user (A>=1)", t!"* WARNING: this package has missing dependencies: ",
    t!"  - c", t!" + b 2, required by: A", t!" + x 3, (orphan)"] := by decide +kernel

example : section_ false [a, b, x] = [t!" + A 1, required by the user (A>=1)", t!"* WARNING: this package has missing dependencies: ",
    t!"  - c"] := by decide +kernel

example : OneEach [a, b, x] := by decide

end ReportExample
open ReportExample

/-- C110: a dependency that is installed in a version that it does not allow is not reported. -/
theorem report_version_violated : ∃ (site : List Installed) (p : Installed) (d : Dep), OneEach site ∧ p ∈ site ∧ d ∈ p.deps ∧
    (∀ q ∈ site, ¬ Meets q d) ∧ ∀ i ∈ toShow true site, i.missing = [] := by
  refine ⟨[{ b with deps := [⟨t!"x", t!"x>=4", fun v => v == t!"4"⟩] }, x], _, ⟨t!"x", t!"x>=4", fun v => v == t!"4"⟩,
    by decide, List.mem_cons_self .., List.mem_cons_self .., ?_, ?_⟩
  · intro q hq
    simp at hq
    rcases hq with rfl | rfl
    · simp [Meets, b]
    · simp [Meets, x]
  · intro i hi
    have h := (report_missing_partial true _ (by decide) i hi)
    have hm := (mem_infos (site := [{ b with deps := [⟨t!"x", t!"x>=4", fun v => v == t!"4"⟩] }, x]) (by decide) (List.mem_filter.1 hi).1).1
    cases he : i.missing with
    | nil => rfl
    | cons d ds =>
      exfalso
      have hd := (h d).1 (by simp [he])
      have hp := hm.1
      simp at hp
      rcases hp with e | e
      · rw [e] at hd
        simp [b] at hd
        obtain ⟨rfl, hd⟩ := hd
        exact hd.2 rfl rfl
      · rw [e] at hd
        simp [x] at hd

/-- C110: containers are left out: a package that only a container requires is called an orphan, although it is needed, and
a dependency on a package that is a container is called missing, although it is installed and meets it. -/
theorem report_container_violated : ∃ (site : List Installed) (c p q : Installed) (d : Dep), OneEach site ∧ c ∈ site ∧ p ∈ site ∧ q ∈ site ∧
    c.request ≠ none ∧ Requires c p ∧ d ∈ q.deps ∧ Meets c d ∧ Needed (graphOf site) p.key ∧
    section_ true site = [t!" + b 2, (orphan)", t!" + q 1, required by the user (q)",
      t!"* WARNING: this package has missing dependencies: ", t!"  - c"] := by
  let c : Installed := { key := t!"c", name := t!"c", version := t!"1", request := some t!"c", container := true, deps := [dep t!"b"] }
  let q : Installed := { key := t!"q", name := t!"q", version := t!"1", request := some t!"q", deps := [dep t!"c"] }
  refine ⟨[c, b, q], c, b, q, dep t!"c", by decide, by simp, by simp, by simp, by simp [c], ⟨dep t!"b", by simp [c], rfl⟩, by simp [q],
    ⟨rfl, rfl⟩, ?_, by decide +kernel⟩
  exact .dependency (b := true) (.requested (k := t!"c") (by rfl) rfl) rfl (by simp [c, dep, b, nodeOf]) (by rfl)

/-- C110: packages that nothing needs are not all called orphans: two that require each other. -/
theorem report_cycle_violated : ∃ site : List Installed, OneEach site ∧ (∀ p ∈ site, ¬ Needed (graphOf site) p.key) ∧
    section_ true site = [t!" + b 2, required by: x", t!" + x 3, required by: b"] := by
  refine ⟨[{ b with deps := [dep t!"x"] }, { x with deps := [dep t!"b"] }], by decide, ?_, by decide +kernel⟩
  intro p _ hn
  generalize p.key = k at hn
  induction hn with
  | requested hg hreq =>
    obtain ⟨p, hp, _, he, _⟩ := graph_get _ _ _ hg
    rw [he] at hreq
    simp at hp
    rcases hp with rfl | rfl <;> simp [b, x] at hreq
  | dependency _ _ _ _ ih => exact ih

/-- C110: a package is called an orphan although it is kept: a requested package names it in a dependency that does not
apply to the environment, which `find_orphan_packages` follows. -/
theorem report_kept_violated : ∃ (site : List Installed) (p : Installed), OneEach site ∧ p ∈ site ∧ Needed (graphOf site) p.key ∧
    section_ true site = [t!" + q 1, required by the user (q)", t!" + b 2, (orphan)"] := by
  let q : Installed := { key := t!"q", name := t!"q", version := t!"1", request := some t!"q", otherDeps := [t!"b"] }
  refine ⟨[q, b], b, by decide, by simp, ?_, by decide +kernel⟩
  exact .dependency (b := false) (.requested (k := t!"q") (by rfl) rfl) rfl (by simp [q, b, nodeOf]) (by rfl)

end Pkm
