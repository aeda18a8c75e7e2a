import Verif.Resolver.Props
import Verif.Install.Props
import Verif.Names.Props
import Verif.Solver.GreedyProps
set_option linter.unusedVariables false
set_option linter.unusedSimpArgs false
set_option linter.unusedSectionVars false
/-
C103: after an installation, what the installed packages require is installed. This joins the models of the resolver (Resolver), of names (Names) and of
the execution of plans (Install), as `plan_installation` does (package_installation.py 124-194): the packages that the resolver returns become the plan, to
which on the fast path the installed packages of other names are added (package_installation.py 177-180).
-/
namespace Pkm
open Solver Resolver Install

variable {V S D : Type} [DecidableEq D]

namespace Spec

/-- What the packages demand: each a dependency (or its override) without extras; and, where a demand names extras, what the package of that name
depends on for these extras. -/
inductive Demands (s : Setting V S) (out : List (Obj V S)) : RDep S → Prop where
  | package (o : Obj V S) (ds : List (RDep S)) (d e : RDep S) (ho : o ∈ out) (hds : o.dependencies [] = some ds) (hd : d ∈ ds)
      (ha : d.applies [] = true) (he : Counts s d e) : Demands s out e
  | extras (e : RDep S) (h : Demands s out e) (o : Obj V S) (ds : List (RDep S)) (d f : RDep S) (ho : o ∈ out)
      (hn : packageNameKey o.name = packageNameKey e.name) (hds : o.dependencies (e.extras.getD []) = some ds) (hd : d ∈ ds)
      (ha : d.applies (e.extras.getD []) = true) (he : Counts s d f) : Demands s out f

/-- A name by which the root, an override or a dependency of some package asks for a package. -/
inductive Mentioned (s : Setting V S) : Text → Prop where
  | root : Mentioned s s.root.name
  | override (n : Text) (e : RDep S) (h : s.overrides.get n = some e) : Mentioned s e.name
  | dependency (n : Text) (v : V) (o : Obj V S) (x : List Text) (ds : List (RDep S)) (d : RDep S) (ho : objectOf s n v = some o)
      (hds : o.dependencies x = some ds) (hd : d ∈ ds) : Mentioned s d.name

/-- Names of one package differ in the case of letters only. -/
def OneSpelling (s : Setting V S) : Prop :=
  ∀ a b, Mentioned s a → Mentioned s b → packageNameKey a = packageNameKey b → lower a = lower b

/-- Repositories answer a question for a URL with a package of the name that was asked for and, except for the package that stands for the request
of the user, of this version. -/
def UrlsAnswered (s : Setting V S) : Prop :=
  ∀ n v o, s.isUrl v = true → s.matchUrl n v = some o → packageNameKey o.name = packageNameKey n ∧
    (packageNameKey n ≠ some requestKey → s.eqv o.version v = true)

/-- The plan: what the resolver returned, then installed packages of other names. -/
def PlanOf (ver : V → Ver) (out : List (Obj V S)) (packages : List (Pkg D)) : Prop :=
  ∃ front back, packages = front ++ back ∧ front.map (fun p => (some p.key, p.version)) = out.map (fun o => (packageNameKey o.name, ver o.version)) ∧
    ∀ p ∈ back, ∀ q ∈ front, p.key ≠ q.key

/-- The site has a package for the dependency, in a version that it allows. -/
def MetIn (alg : Alg V S) (ver : V → Ver) (site : Dict Text (Inst D)) (e : RDep S) : Prop :=
  ∃ k i v, packageNameKey e.name = some k ∧ site.get k = some i ∧ i.version.eqv (ver v) = true ∧ alg.allows e.spec v = true

end Spec
open Spec

namespace EndToEnd

theorem key_of_descriptor {a b : Text} (h : descriptorName a = descriptorName b) : packageNameKey a = packageNameKey b := by
  have key : ∀ a : Text, packageNameKey a = (descriptorName a).map (fun t => lower (t.map (fun c => if c = '-' then '_' else if c = '.' then '_' else c))) := by
    intro a
    unfold descriptorName
    split
    · rename_i ha
      have : a = [] := by simpa using ha
      subst this
      rfl
    · unfold packageNameKey srcPackageName
      cases normalizeName a with
      | none => rfl
      | some r =>
        simp only [Option.map_some, replaceChar, List.map_map, Option.some.injEq]
        congr 1
        apply List.map_congr_left
        intro c _
        by_cases hc : c = '_'
        · subst hc; rfl
        · simp [hc]
  rw [key a, key b, h]

theorem key_lower (a : Text) : packageNameKey (lower a) = packageNameKey a := name_key_ignores_case _ _ (lower_lower a)

/-- The package of an entry has its name and version. -/
theorem object_facts {s : Setting V S} (hu : UrlsAnswered s) {n : Text} {v : V} {o : Obj V S} (h : objectOf s n v = some o) :
    packageNameKey o.name = packageNameKey n ∧ (packageNameKey n ≠ some requestKey → s.eqv o.version v = true) := by
  unfold objectOf at h
  split at h
  · rename_i hv; exact hu n v o hv h
  · unfold opened at h
    have h1 := List.find?_some h
    simp only [Bool.and_eq_true, decide_eq_true_eq] at h1
    exact ⟨by rw [← key_lower o.name]; exact key_of_descriptor h1.2, fun _ => h1.1⟩

theorem no_extras {p : RPkg} (h : p.hasExtras = false) : p.extras.getD [] = [] := by
  simpa [RPkg.hasExtras] using h

/-- The packages that are returned, from the selected entries. -/
theorem mem_out {s : Setting V S} {sel : Dict RPkg V} {out : List (Obj V S)}
    (hout : out.map some = (sel.filter (fun e => !e.1.hasExtras)).map (fun e => objectOf s e.1.name e.2)) (o : Obj V S) :
    o ∈ out ↔ ∃ p v, (p, v) ∈ sel ∧ p.hasExtras = false ∧ objectOf s p.name v = some o := by
  have : o ∈ out ↔ some o ∈ out.map some := by simp
  rw [this, hout]
  simp only [List.mem_map, List.mem_filter, Bool.not_eq_eq_eq_not, Bool.not_true, Prod.exists]
  constructor
  · rintro ⟨p, v, ⟨h1, h2⟩, h3⟩; exact ⟨p, v, h1, h2, h3⟩
  · rintro ⟨p, v, h1, h2, h3⟩; exact ⟨p, v, ⟨h1, h2⟩, h3⟩

/-- Different packages have different names. -/
theorem out_keys {alg : Alg V S} {s : Setting V S} {ch : Choices RPkg S} (hs : NoEmptyExtras s) (h1 : OneSpelling s) (hu : UrlsAnswered s)
    {fuel : Nat} {out : List (Obj V S)} (h : resolve alg s ch fuel = .ok out) : (out.map (fun o => packageNameKey o.name)).Nodup := by
  obtain ⟨sel, hwf, hout, -, -, hj⟩ := resolver_output h
  have hne : ∀ p, Justified alg s sel p → p.extras ≠ some [] ∧ ∃ n, Mentioned s n ∧ p.name = lower n := by
    intro p hp
    induction hp with
    | root => exact ⟨hs.1, _, .root, rfl⟩
    | wanted p' v' q c hp' hv hw ih =>
      cases hw with
      | base _ => exact ⟨by simp, ih.2⟩
      | dependency o ds d e ho hds hd ha he =>
        rcases he with he | ⟨-, rfl⟩
        · exact ⟨hs.2.1 _ _ he, _, .override _ _ he, rfl⟩
        · exact ⟨hs.2.2 _ _ _ _ _ _ ho hds hd, _, .dependency _ _ _ _ _ _ ho hds hd, rfl⟩
  have hkeys : out.map (fun o => packageNameKey o.name) = (sel.filter (fun e => !e.1.hasExtras)).map (fun e => packageNameKey e.1.name) := by
    clear hwf hj hne h
    revert hout
    generalize sel.filter (fun e => !e.1.hasExtras) = l
    intro hout
    induction l generalizing out with
    | nil => simp at hout; subst hout; rfl
    | cons e l ih =>
      cases out with
      | nil => simp at hout
      | cons o out =>
        simp only [List.map_cons, List.cons.injEq] at hout ⊢
        exact ⟨(object_facts hu hout.1.symm).1, ih hout.2⟩
  rw [hkeys]
  have hnd : ((sel.filter (fun e => !e.1.hasExtras)).map (·.1)).Nodup :=
    List.Sublist.nodup (List.Sublist.map _ List.filter_sublist) hwf
  rw [List.nodup_iff_pairwise_ne] at hnd ⊢
  rw [List.pairwise_map] at hnd ⊢
  refine hnd.imp_of_mem ?_
  intro a b ha hb hab he
  apply hab
  have hfact : ∀ e, e ∈ sel.filter (fun e => !e.1.hasExtras) → e.1.extras = none ∧ ∃ n, Mentioned s n ∧ e.1.name = lower n := by
    intro e he
    obtain ⟨h1, h2⟩ := List.mem_filter.1 he
    obtain ⟨h3, h4⟩ := hne e.1 (hj e.1 e.2 h1)
    refine ⟨?_, h4⟩
    cases hx : e.1.extras with
    | none => rfl
    | some l =>
      cases l with
      | nil => exact absurd hx h3
      | cons a l => simp [RPkg.hasExtras, hx] at h2
  obtain ⟨ha1, na, ha2, ha3⟩ := hfact a ha
  obtain ⟨hb1, nb, hb2, hb3⟩ := hfact b hb
  have hn : a.1.name = b.1.name := by
    rw [ha3, hb3]
    apply h1 _ _ ha2 hb2
    rw [← key_lower na, ← key_lower nb, ← ha3, ← hb3]
    exact he
  obtain ⟨⟨an, ax⟩, av⟩ := a
  obtain ⟨⟨bn, bx⟩, bv⟩ := b
  simp only at ha1 hb1 hn ⊢
  subst ha1 hb1 hn
  rfl

/-- Of different things there is one with a given name. -/
theorem nodup_map_inj {α β : Type} {f : α → β} {l : List α} (h : (l.map f).Nodup) {a b : α} (ha : a ∈ l) (hb : b ∈ l) (he : f a = f b) : a = b := by
  induction l with
  | nil => cases ha
  | cons x l ih =>
    rw [List.map_cons, List.nodup_cons] at h
    rcases List.mem_cons.1 ha with e | ha'
    · rcases List.mem_cons.1 hb with e' | hb'
      · exact e.trans e'.symm
      · subst e; exact absurd (he ▸ List.mem_map_of_mem hb') h.1
    · rcases List.mem_cons.1 hb with e | hb'
      · subst e; exact absurd (he ▸ List.mem_map_of_mem ha') h.1
      · exact ih h.2 ha' hb'

/-- What the plan has for a returned package. -/
theorem planned_of {ver : V → Ver} {out : List (Obj V S)} {packages : List (Pkg D)} (hp : PlanOf ver out packages)
    (hk : (out.map (fun o => packageNameKey o.name)).Nodup) {o : Obj V S} (ho : o ∈ out) (hr : packageNameKey o.name ≠ some requestKey) :
    ∃ k p, packageNameKey o.name = some k ∧ planned packages k = some p ∧ p.version = ver o.version := by
  obtain ⟨front, back, rfl, hf, hb⟩ := hp
  have hm : (packageNameKey o.name, ver o.version) ∈ front.map (fun p => (some p.key, p.version)) := by
    rw [hf]; exact List.mem_map.2 ⟨o, ho, rfl⟩
  obtain ⟨p, hpf, he⟩ := List.mem_map.1 hm
  simp only [Prod.mk.injEq] at he
  have hnd : (front.map (fun p => p.key)).Nodup := by
    have : (front.map (fun p => (some p.key, p.version))).map Prod.fst = out.map (fun o => packageNameKey o.name) := by
      rw [hf, List.map_map]; rfl
    rw [List.map_map] at this
    rw [← this] at hk
    have h2 : (front.map (Prod.fst ∘ fun p => (some p.key, p.version))) = (front.map (fun p => p.key)).map some := by
      rw [List.map_map]; rfl
    rw [h2] at hk
    rw [List.nodup_iff_pairwise_ne] at hk ⊢
    rw [List.pairwise_map] at hk
    exact hk.imp (fun h e => h (by rw [e]))
  have hu : p.isUserRequest = false := by
    cases p with
    | userRequest => exact absurd he.1.symm hr
    | _ => rfl
  refine ⟨p.key, p, he.1.symm, ?_, he.2⟩
  have hall : ∀ q ∈ (front ++ back).filter (fun q => !q.isUserRequest && decide (q.key = p.key)), q = p := by
    intro q hq
    obtain ⟨hq1, hq2⟩ := List.mem_filter.1 hq
    simp only [Bool.and_eq_true, decide_eq_true_eq] at hq2
    rcases List.mem_append.1 hq1 with hq1 | hq1
    · exact nodup_map_inj hnd hq1 hpf hq2.2
    · exact absurd hq2.2 (hb q hq1 p hpf)
  have hpm : p ∈ (front ++ back).filter (fun q => !q.isUserRequest && decide (q.key = p.key)) :=
    List.mem_filter.2 ⟨List.mem_append_left _ hpf, by simp [hu]⟩
  unfold planned
  cases hl : ((front ++ back).filter (fun q => !q.isUserRequest && decide (q.key = p.key))).getLast? with
  | none => rw [List.getLast?_eq_none_iff] at hl; rw [hl] at hpm; cases hpm
  | some q => rw [hall q (List.mem_of_getLast? hl)]

/-- From a selection that meets all constraints to the demands of the returned packages. -/
theorem demands_selected {alg : Alg V S} {s : Setting V S} {sel : Dict RPkg V} {out : List (Obj V S)} (hu : UrlsAnswered s)
    (hout : out.map some = (sel.filter (fun e => !e.1.hasExtras)).map (fun e => objectOf s e.1.name e.2))
    (hsat : ∀ p v, (p, v) ∈ sel → ∀ q c, Wants alg s p v q c → ∃ w, (q, w) ∈ sel ∧ alg.allows c w = true)
    (hpin : ∀ p v, (p, v) ∈ sel → p.hasExtras = true → ∃ w, (⟨p.name, none⟩, w) ∈ sel ∧ objectOf s p.name w = objectOf s p.name v)
    (hob : ∀ p v, (p, v) ∈ sel → ∃ o, objectOf s p.name v = some o)
    (hk : (out.map (fun o => packageNameKey o.name)).Nodup) {e : RDep S} (h : Demands s out e) :
    ∃ o w, o ∈ out ∧ packageNameKey o.name = packageNameKey e.name ∧ (⟨lower e.name, e.extras⟩, w) ∈ sel ∧
      objectOf s (lower e.name) w = some o ∧ alg.allows e.spec w = true := by
  have fin : ∀ e : RDep S, (∃ w, ((⟨lower e.name, e.extras⟩ : RPkg), w) ∈ sel ∧ alg.allows e.spec w = true) →
      ∃ o w, o ∈ out ∧ packageNameKey o.name = packageNameKey e.name ∧ (⟨lower e.name, e.extras⟩, w) ∈ sel ∧
        objectOf s (lower e.name) w = some o ∧ alg.allows e.spec w = true := by
    rintro e ⟨w, hw, ha⟩
    obtain ⟨o, ho⟩ := hob _ _ hw
    refine ⟨o, w, ?_, ?_, hw, ho, ha⟩
    · rw [mem_out hout]
      cases hx : (⟨lower e.name, e.extras⟩ : RPkg).hasExtras with
      | false => exact ⟨_, w, hw, hx, ho⟩
      | true =>
        obtain ⟨w', hw', he⟩ := hpin _ _ hw hx
        exact ⟨_, w', hw', rfl, he.trans ho⟩
    · rw [(object_facts hu ho).1]; exact key_lower _
  induction h with
  | package o ds d e ho hds hd ha he =>
    obtain ⟨p, v, hp, hx, hop⟩ := (mem_out hout o).1 ho
    have hn := no_extras hx
    exact fin e (hsat p v hp _ _ (.dependency o ds d e hop (by rw [hn]; exact hds) hd (by rw [hn]; exact ha) he))
  | extras e h o ds d f ho hn hds hd ha he ih =>
    obtain ⟨o', w, ho', hn', hw, hob', ha'⟩ := ih
    have : o' = o := nodup_map_inj hk ho' ho (hn'.trans hn.symm)
    subst this
    exact fin f (hsat _ w hw _ _ (.dependency o' ds d f hob' hds hd ha he))

/-- From there to the site. -/
theorem met {alg : Alg V S} {s : Setting V S} {ver : V → Ver} (hver : ∀ a b, s.eqv a b = true → (ver a).eqv (ver b) = true)
    {sel : Dict RPkg V} {out : List (Obj V S)} (hu : UrlsAnswered s)
    (hout : out.map some = (sel.filter (fun e => !e.1.hasExtras)).map (fun e => objectOf s e.1.name e.2))
    (hsat : ∀ p v, (p, v) ∈ sel → ∀ q c, Wants alg s p v q c → ∃ w, (q, w) ∈ sel ∧ alg.allows c w = true)
    (hpin : ∀ p v, (p, v) ∈ sel → p.hasExtras = true → ∃ w, (⟨p.name, none⟩, w) ∈ sel ∧ objectOf s p.name w = objectOf s p.name v)
    (hob : ∀ p v, (p, v) ∈ sel → ∃ o, objectOf s p.name v = some o)
    (hk : (out.map (fun o => packageNameKey o.name)).Nodup)
    (auto : Text → StoreMode) (plan : Plan D) (hp : PlanOf ver out plan.packages) (installed : List (Inst D))
    (hin : ∀ i, Pkg.installed i ∈ plan.packages → (dictBy Inst.key installed).get i.key = some i)
    (order : List (Pkg D × Op)) (ho : order.Perm (tasks plan installed)) :
    ∃ site, runTasks auto plan order (dictBy Inst.key installed) = some site ∧
      ∀ e, Demands s out e → packageNameKey e.name ≠ some requestKey → MetIn alg ver site e := by
  obtain ⟨site, hs, hm⟩ := plan_executes auto plan installed hin order ho
  refine ⟨site, hs, fun e he hr => ?_⟩
  obtain ⟨o, w, ho, hn, -, hob', ha⟩ := demands_selected hu hout hsat hpin hob hk he
  obtain ⟨k, p, hk1, hpl, hv⟩ := planned_of hp hk ho (by rw [hn]; exact hr)
  have := hm k
  rw [hpl] at this
  obtain ⟨i, hi, -, hiv, -⟩ := this
  refine ⟨k, i, w, by rw [← hn]; exact hk1, hi, ?_, ha⟩
  rw [hv] at hiv
  exact VSpec.ver_eqv_trans _ _ _ hiv (hver _ _ ((object_facts hu hob').2 (by rw [key_lower]; exact hr)))

end EndToEnd
open EndToEnd

/-- C103 for specifier operations that are exact and versions whose neighbours share no dependency: when the dependencies are resolved and the plan is
executed, in whatever order, then everything that the resolved packages demand of each other is installed in an allowed version. Missing: see
`install_spelling_violated` and `resolver_extras_violated`. -/
theorem install_consistent_partial {alg : Alg V S} {s : Setting V S} {ch : Choices RPkg S} (hx : Exact alg) (hun : Unshared alg (problem alg s))
    (hs : NoEmptyExtras s) (h1 : OneSpelling s) (hu : UrlsAnswered s) {ver : V → Ver} (hver : ∀ a b, s.eqv a b = true → (ver a).eqv (ver b) = true)
    {fuel : Nat} {out : List (Obj V S)} (h : resolve alg s ch fuel = .ok out)
    (auto : Text → StoreMode) (plan : Plan D) (hp : PlanOf ver out plan.packages) (installed : List (Inst D))
    (hin : ∀ i, Pkg.installed i ∈ plan.packages → (dictBy Inst.key installed).get i.key = some i)
    (order : List (Pkg D × Op)) (ho : order.Perm (tasks plan installed)) :
    ∃ site, runTasks auto plan order (dictBy Inst.key installed) = some site ∧
      ∀ e, Demands s out e → packageNameKey e.name ≠ some requestKey → MetIn alg ver site e := by
  have hk := out_keys hs h1 hu h
  unfold resolve at h
  split at h
  · simp at h
  · rename_i sol hsol
    obtain ⟨-, -, -, hd⟩ := resolution_solves_partial hx hun hsol
    have hsat : ∀ p v, (p, v) ∈ sol → ∀ q c, Wants alg s p v q c → ∃ w, (q, w) ∈ sol ∧ alg.allows c w = true := by
      intro p v hp q c hw
      obtain ⟨ts, hts, hq⟩ := hd p v hp
      exact hq q c ((getDependencies_wants hts q c).2 hw)
    refine met hver hu (collect_ok h) hsat ?_ ?_ hk auto plan hp installed hin order ho
    · intro p v hp hxp
      obtain ⟨w, hw, ha⟩ := hsat p v hp _ _ (.base hxp)
      rw [(hx.single v w).1 ha] at hw
      exact ⟨v, hw, rfl⟩
    · intro p v hp
      obtain ⟨ts, hts, -⟩ := hd p v hp
      change getDependencies alg s p v = some ts at hts
      unfold getDependencies at hts
      cases ho : objectOf s p.name v with
      | none => rw [ho] at hts; simp at hts
      | some o => exact ⟨o, rfl⟩

/-- C103 without a condition on versions and specifiers: everything that the resolved packages require (without extras) is installed in some version. -/
theorem install_closed_partial {alg : Alg V S} {s : Setting V S} {ch : Choices RPkg S}
    (hs : NoEmptyExtras s) (h1 : OneSpelling s) (hu : UrlsAnswered s) {ver : V → Ver}
    {fuel : Nat} {out : List (Obj V S)} (h : resolve alg s ch fuel = .ok out)
    (auto : Text → StoreMode) (plan : Plan D) (hp : PlanOf ver out plan.packages) (installed : List (Inst D))
    (hin : ∀ i, Pkg.installed i ∈ plan.packages → (dictBy Inst.key installed).get i.key = some i)
    (order : List (Pkg D × Op)) (ho : order.Perm (tasks plan installed)) :
    ∃ site, runTasks auto plan order (dictBy Inst.key installed) = some site ∧
      ∀ o ∈ out, ∀ ds, o.dependencies [] = some ds → ∀ d ∈ ds, d.applies [] = true → ∀ e, Counts s d e → packageNameKey e.name ≠ some requestKey →
        ∃ k i, packageNameKey e.name = some k ∧ site.get k = some i := by
  have hk := out_keys hs h1 hu h
  obtain ⟨site, hsite, hm⟩ := plan_executes auto plan installed hin order ho
  obtain ⟨sel, hwf, hout, -, hcl, -⟩ := resolver_output h
  refine ⟨site, hsite, fun o hoo ds hds d hd ha e he hr => ?_⟩
  obtain ⟨p, v, hpv, hx, hop⟩ := (mem_out hout o).1 hoo
  have hn := no_extras hx
  have hbase : ∃ w, ((⟨lower e.name, none⟩ : RPkg), w) ∈ sel ∨ ((⟨lower e.name, e.extras⟩ : RPkg), w) ∈ sel ∧ (⟨lower e.name, e.extras⟩ : RPkg).hasExtras = false := by
    obtain ⟨w, hw⟩ := hcl p v hpv _ _ (.dependency o ds d e hop (by rw [hn]; exact hds) hd (by rw [hn]; exact ha) he)
    cases hxe : (⟨lower e.name, e.extras⟩ : RPkg).hasExtras with
    | false => exact ⟨w, .inr ⟨hw, rfl⟩⟩
    | true =>
      obtain ⟨w', hw'⟩ := hcl _ _ hw _ _ (.base hxe)
      exact ⟨w', .inl hw'⟩
  obtain ⟨q, w, hqw, hqx, hqn⟩ : ∃ q w, (q, w) ∈ sel ∧ q.hasExtras = false ∧ q.name = lower e.name := by
    obtain ⟨w, hw | ⟨hw, hf⟩⟩ := hbase
    · exact ⟨_, w, hw, rfl, rfl⟩
    · exact ⟨_, w, hw, hf, rfl⟩
  have : ∃ o', objectOf s q.name w = some o' := by
    have hmem : objectOf s q.name w ∈ (sel.filter (fun e => !e.1.hasExtras)).map (fun e => objectOf s e.1.name e.2) :=
      List.mem_map.2 ⟨(q, w), List.mem_filter.2 ⟨hqw, by simp [hqx]⟩, rfl⟩
    rw [← hout] at hmem
    obtain ⟨o', -, ho'⟩ := List.mem_map.1 hmem
    exact ⟨o', ho'.symm⟩
  obtain ⟨o', ho'⟩ := this
  have hmo : o' ∈ out := (mem_out hout o').2 ⟨q, w, hqw, hqx, ho'⟩
  have hkey : packageNameKey o'.name = packageNameKey e.name := by rw [(object_facts hu ho').1, hqn]; exact key_lower _
  obtain ⟨k, p', hk1, hpl, -⟩ := planned_of hp hk hmo (by rw [hkey]; exact hr)
  have := hm k
  rw [hpl] at this
  obtain ⟨i, hi, -⟩ := this
  exact ⟨k, i, by rw [← hkey]; exact hk1, hi⟩

/-- C103 for the versions and specifiers of pkm: if the preferred versions of a problem are compatible (`Preferred`; and the selected versions of a package
are the same with and without extras), then the resolver succeeds with every order of its steps, and after the plan is executed, in whatever order,
everything that the resolved packages demand of each other is installed in an allowed version. -/
theorem install_found_partial {s : Setting Ver VSpec} {R : List RPkg} {sel : RPkg → Ver} (hpr : Preferred (problem specifiers s) R sel)
    (hsel : ∀ n x, sel ⟨n, x⟩ = sel ⟨n, none⟩) (hs : NoEmptyExtras s) (h1 : OneSpelling s) (hu : UrlsAnswered s)
    (hver : ∀ a b, s.eqv a b = true → a.eqv b = true) (ch : Choices RPkg VSpec) :
    ∃ n, ∀ fuel, n ≤ fuel → ∃ out, resolve specifiers s ch fuel = .ok out ∧
      ∀ (auto : Text → StoreMode) (plan : Plan D) (installed : List (Inst D)) (order : List (Pkg D × Op)), PlanOf id out plan.packages →
        (∀ i, Pkg.installed i ∈ plan.packages → (dictBy Inst.key installed).get i.key = some i) → order.Perm (tasks plan installed) →
        ∃ site, runTasks auto plan order (dictBy Inst.key installed) = some site ∧
          ∀ e, Demands s out e → packageNameKey e.name ≠ some requestKey → MetIn specifiers id site e := by
  obtain ⟨n, hn⟩ := resolution_found_partial hpr ch
  refine ⟨n, fun fuel hf => ?_⟩
  obtain ⟨sol, hsol, hsolves, hv⟩ := hn fuel hf
  obtain ⟨-, -, -, hd⟩ := hsolves
  have hob : ∀ p v, (p, v) ∈ sol → ∃ o, objectOf s p.name v = some o := by
    intro p v hp
    obtain ⟨ts, hts, -⟩ := hd p v hp
    change getDependencies specifiers s p v = some ts at hts
    unfold getDependencies at hts
    cases ho : objectOf s p.name v with
    | none => rw [ho] at hts; simp at hts
    | some o => exact ⟨o, rfl⟩
  have hsat : ∀ p v, (p, v) ∈ sol → ∀ q c, Wants specifiers s p v q c → ∃ w, (q, w) ∈ sol ∧ specifiers.allows c w = true := by
    intro p v hp q c hw
    obtain ⟨ts, hts, hq⟩ := hd p v hp
    exact hq q c ((getDependencies_wants hts q c).2 hw)
  obtain ⟨out, hout⟩ := collect_total hob
  have hres : resolve specifiers s ch fuel = .ok out := by unfold resolve; rw [hsol]; exact hout
  refine ⟨out, hres, fun auto plan installed order hp hin ho => ?_⟩
  refine met (ver := id) hver hu (collect_ok hout) hsat ?_ hob (out_keys hs h1 hu hres) auto plan hp installed hin order ho
  intro p v hp hx
  obtain ⟨w, hw, -⟩ := hsat p v hp _ _ (.base hx)
  refine ⟨w, hw, ?_⟩
  rw [hv _ _ hw, hv _ _ hp, ← hsel p.name p.extras]

/-! ### Examples -/

namespace EndToEndExample
open SolverExample

/-- r needs a[e]; a 1 needs for the extra e the version 0 of b. -/
def packages : List (Text × List (Fin 3 × List (RDep (Fin 3 → Bool)))) :=
  [(['r'], [(0, [{ name := ['A'], spec := oneOf [0, 1], extras := some [['e']] }])]),
   (['a'], [(1, [{ name := ['b'], spec := oneOf [0], applies := fun x => x.contains ['e'] }]), (0, [])]),
   (['b'], [(1, []), (0, [])])]

def setting : Setting (Fin 3) (Fin 3 → Bool) where
  list n := match packages.find? (fun p => p.1 = n) with
    | none => []
    | some p => p.2.map (fun e => { name := n, version := e.1, dependencies := fun _ => some e.2 })
  matchUrl _ _ := none
  matchVersion _ _ _ := false
  root := { name := ['r'], spec := fun _ => true }
  overrides := []
  isStandard _ := true
  isUrl _ := false
  eqv a b := a = b

def outcome (fuel : Nat) : Sum RErr (List (Text × Fin 3)) :=
  match resolve (SolverExample.sets 3) setting ⟨fun _ _ => 0, fun _ l => l⟩ fuel with
  | .ok os => .inr (os.map (fun o => (o.name, o.version)))
  | .error e => .inl e

/-- Packages of pkm's versions, listed under every spelling of their name. -/
def spelled (pkgs : List (Text × Nat × List (RDep VSpec))) : Setting Ver VSpec :=
  { ResolverExample.setting [] [] with
    list := fun n => (pkgs.filter (fun p => packageNameKey p.1 = packageNameKey n)).reverse.map (fun p =>
      { name := p.1, version := ResolverExample.ver p.2.1, dependencies := fun _ => some p.2.2 }) }

/-- r needs x and y; x needs a-b<2 and y needs a_b>=2. -/
def twoSpelled : List (Text × Nat × List (RDep VSpec)) :=
  [(['r'], 0, [{ name := ['x'], spec := .all }, { name := ['y'], spec := .all }]),
    (['x'], 1, [{ name := ['a', '-', 'b'], spec := ResolverExample.lt 2 }]),
    (['y'], 1, [{ name := ['a', '_', 'b'], spec := ResolverExample.ge 2 }]),
    (['a', '-', 'b'], 1, []), (['a', '-', 'b'], 2, [])]

def twoSpellings : Setting Ver VSpec := spelled twoSpelled

/-- No version is below 2 and at least 2. -/
theorem below_above {u v w : Ver} (hv : u.eqv v = true) (ha : specifiers.allows (ResolverExample.lt 2) v = true) (hw : u.eqv w = true)
    (hb : specifiers.allows (ResolverExample.ge 2) w = true) : False := by
  change VSpec.rangeAllows none (some { release := [2] }) false false v = true at ha
  change VSpec.rangeAllows (some { release := [2] }) none true false w = true at hb
  cases u with
  | std a =>
    cases v with
    | std b =>
      cases w with
      | std c =>
        rw [← VSpec.rangeAllows_congr _ _ _ _ a b hv] at ha
        rw [← VSpec.rangeAllows_congr _ _ _ _ a c hw] at hb
        have h1 : SV.lt a { release := [2] } = true := by
          simp only [VSpec.rangeAllows, Bool.false_and, Bool.or_self, Bool.false_eq_true, if_false] at ha
          split at ha
          · cases ha
          · simpa [Ver.lt] using ha
        have h2 : SV.eqv { release := [2] } a = true ∨ SV.lt { release := [2] } a = true := by
          simp only [VSpec.rangeAllows, Bool.true_and, Bool.false_and, Bool.or_false] at hb
          split at hb
          · rename_i he; left; simpa [VSpec.endEq, Ver.eqv] using he
          · split at hb
            · cases hb
            · right; simpa [Ver.lt] using hb
        rcases h2 with h2 | h2
        · have := SV.eqv_stage.ne _ _ h1
          rw [SV.eqv_stage.symm _ _ h2] at this
          cases this
        · have := SV.eqv_stage.ne _ _ (SV.eqv_stage.ltTrans _ _ _ h1 h2)
          rw [SV.eqv_stage.refl] at this
          cases this
      | _ => simp [Ver.eqv] at hw
    | _ => simp [Ver.eqv] at hv
  | named n =>
    cases w with
    | named m => simp [VSpec.rangeAllows, VSpec.endEq, Ver.eqv, Ver.lt, Ver.isPost] at hb
    | _ => simp [Ver.eqv] at hw
  | url a b c =>
    cases w with
    | url a b c => simp [VSpec.rangeAllows, VSpec.endEq, Ver.eqv, Ver.lt, Ver.isPost] at hb
    | _ => simp [Ver.eqv] at hw

theorem names (n : Text) (v : Fin 3) (o : Obj (Fin 3) (Fin 3 → Bool)) (h : objectOf setting n v = some o) :
    o ∈ setting.list n ∧ o.version = v := by
  simp only [objectOf, setting, Bool.false_eq_true, if_false] at h
  have h1 := List.find?_some h
  have h2 := List.mem_of_find?_eq_some h
  simp only [Bool.and_eq_true, decide_eq_true_eq] at h1
  exact ⟨(mem_compatibles (List.mem_reverse.1 h2)).1, h1.1⟩

/-- What there is, by name. -/
theorem listed {n : Text} {o : Obj (Fin 3) (Fin 3 → Bool)} (h : o ∈ setting.list n) :
    ∃ p ∈ packages, p.1 = n ∧ ∃ e ∈ p.2, o.name = n ∧ o.version = e.1 ∧ ∀ x, o.dependencies x = some e.2 := by
  simp only [setting] at h
  split at h
  · cases h
  · rename_i p hp
    obtain ⟨e, he, rfl⟩ := List.mem_map.1 h
    have := List.find?_some hp
    exact ⟨p, List.mem_of_find?_eq_some hp, by simpa using this, e, he, rfl, rfl, fun _ => rfl⟩

theorem depends {n : Text} {v : Fin 3} {o : Obj (Fin 3) (Fin 3 → Bool)} {x : List Text} {ds : List (RDep (Fin 3 → Bool))}
    {d : RDep (Fin 3 → Bool)} (h : objectOf setting n v = some o) (hds : o.dependencies x = some ds) (hd : d ∈ ds) :
    (d.name = ['A'] ∧ d.extras = some [['e']]) ∨ (d.name = ['b'] ∧ d.extras = none) := by
  obtain ⟨p, hp, -, e, he, -, -, hx⟩ := listed (names _ _ _ h).1
  rw [hx x] at hds
  simp only [Option.some.injEq] at hds
  subst hds
  simp only [packages, List.mem_cons, List.not_mem_nil, or_false] at hp
  rcases hp with rfl | rfl | rfl
  · simp at he; subst he; simp at hd; subst hd; simp
  · simp at he; rcases he with rfl | rfl
    · simp at hd; subst hd; simp
    · simp at hd
  · simp at he; rcases he with rfl | rfl <;> simp at hd

/-- The dependency of a package with extras on the package itself. -/
def itself (p : RPkg) (v : Fin 3) : List (RPkg × (Fin 3 → Bool)) := if p.hasExtras then [(⟨p.name, none⟩, (sets 3).single v)] else []

theorem deps_are {p : RPkg} {v : Fin 3} {ds : List (RPkg × (Fin 3 → Bool))} (h : (problem (sets 3) setting).deps p v = some ds) :
    (p.name = ['r'] ∧ v = 0 ∧ ds = itself p v ++ [(⟨['a'], some [['e']]⟩, oneOf [0, 1])]) ∨
    (p.name = ['a'] ∧ v = 1 ∧ (ds = itself p v ∨ ds = itself p v ++ [(⟨['b'], none⟩, oneOf [0])])) ∨
    (p.name = ['a'] ∧ v = 0 ∧ ds = itself p v) ∨ (p.name = ['b'] ∧ (v = 1 ∨ v = 0) ∧ ds = itself p v) := by
  change getDependencies (sets 3) setting p v = some ds at h
  unfold getDependencies at h
  cases ho : objectOf setting p.name v with
  | none => rw [ho] at h; simp at h
  | some o =>
    rw [ho] at h
    obtain ⟨h1, h2⟩ := names _ _ _ ho
    obtain ⟨pk, hp, hpn, e, he, -, hv, hx⟩ := listed h1
    simp only [hx, Option.some.injEq] at h
    subst h
    rw [h2] at hv
    subst hv
    simp only [packages, List.mem_cons, List.not_mem_nil, or_false] at hp
    rcases hp with rfl | rfl | rfl
    · simp only [List.mem_singleton] at he; subst he
      exact .inl ⟨hpn.symm, rfl, rfl⟩
    · simp only [List.mem_cons, List.not_mem_nil, or_false] at he
      rcases he with rfl | rfl
      · refine .inr (.inl ⟨hpn.symm, rfl, ?_⟩)
        unfold termsOf
        cases hc : (p.extras.getD []).contains ['e'] with
        | true => right; simp only [List.filter, hc]; rfl
        | false => left; simp only [List.filter, hc]; simp [itself]
      · exact .inr (.inr (.inl ⟨hpn.symm, rfl, by simp [termsOf, itself]⟩))
    · simp only [List.mem_cons, List.not_mem_nil, or_false] at he
      rcases he with rfl | rfl
      · exact .inr (.inr (.inr ⟨hpn.symm, .inl rfl, by simp [termsOf, itself]⟩))
      · exact .inr (.inr (.inr ⟨hpn.symm, .inr rfl, by simp [termsOf, itself]⟩))

theorem mem_itself {p q : RPkg} {v : Fin 3} {c : Fin 3 → Bool} (h : (q, c) ∈ itself p v) : q = ⟨p.name, none⟩ ∧ c = (sets 3).single v := by
  unfold itself at h
  split at h
  · simpa using h
  · cases h

theorem itself_nodup (p : RPkg) (v : Fin 3) : ((itself p v).map (·.1)).Nodup := by
  unfold itself; split <;> simp

theorem setting_unshared : Unshared (sets 3) (problem (sets 3) setting) where
  nodup p := by
    have hname : ∀ n : Text, n = ['r'] ∨ n = ['a'] ∨ n = ['b'] ∨ setting.list n = [] := by
      intro n
      by_cases h1 : n = ['r']; · exact .inl h1
      by_cases h2 : n = ['a']; · exact .inr (.inl h2)
      by_cases h3 : n = ['b']; · exact .inr (.inr (.inl h3))
      refine .inr (.inr (.inr ?_))
      simp [setting, packages, List.find?, Ne.symm h1, Ne.symm h2, Ne.symm h3]
    show (((compatibles setting p.name).filter (fun o => setting.isStandard o.version)).map (·.version)).Nodup
    rcases hname p.name with h | h | h | h
    · rw [h]; decide
    · rw [h]; decide
    · rw [h]; decide
    · unfold compatibles; rw [h]; decide
  once p v ds h := by
    rcases deps_are h with ⟨hn, -, rfl⟩ | ⟨hn, -, rfl | rfl⟩ | ⟨-, -, rfl⟩ | ⟨-, -, rfl⟩
    · rw [List.map_append, List.nodup_append]
      refine ⟨itself_nodup p v, by simp, ?_⟩
      intro a ha b hb e
      obtain ⟨⟨q, c⟩, hm, rfl⟩ := List.mem_map.1 ha
      rw [(mem_itself hm).1] at e
      simp at hb; subst hb; simp [hn] at e
    · exact itself_nodup p v
    · rw [List.map_append, List.nodup_append]
      refine ⟨itself_nodup p v, by simp, ?_⟩
      intro a ha b hb e
      obtain ⟨⟨q, c⟩, hm, rfl⟩ := List.mem_map.1 ha
      rw [(mem_itself hm).1] at e
      simp at hb; subst hb; simp [hn] at e
    · exact itself_nodup p v
    · exact itself_nodup p v
  neighbours p v w ds es q c d hv hw hlt hn hds hes hc hd := by
    have hne : v ≠ w := by rintro rfl; simp [sets] at hlt
    have hs : ∀ v w : Fin 3, v ≠ w → (sets 3).same ((sets 3).single w) ((sets 3).single v) = false := by decide
    have fin : c = (sets 3).single v → d = (sets 3).single w → (sets 3).same d c = false := by rintro rfl rfl; exact hs v w hne
    rcases deps_are hds with ⟨n1, v1, e1⟩ | ⟨n1, v1, e1⟩ | ⟨n1, v1, e1⟩ | ⟨n1, v1, e1⟩ <;>
      rcases deps_are hes with ⟨n2, v2, e2⟩ | ⟨n2, v2, e2⟩ | ⟨n2, v2, e2⟩ | ⟨n2, v2, e2⟩ <;>
      first
        | (exfalso; rw [n1] at n2; revert n2; decide)
        | (exfalso; exact hne (v1.trans v2.symm))
        | skip
    · subst v1 v2; exact absurd hlt (by decide)
    · subst e1
      obtain ⟨rfl, hc'⟩ := mem_itself hc
      rcases e2 with rfl | rfl
      · exact fin hc' (mem_itself hd).2
      · rcases List.mem_append.1 hd with hd | hd
        · exact fin hc' (mem_itself hd).2
        · simp [n1] at hd
    · subst e1 e2; exact fin (mem_itself hc).2 (mem_itself hd).2

end EndToEndExample
open EndToEndExample

example : outcome 30 = .inr [(['r'], 0), (['a'], 1), (['b'], 0)] := by decide +kernel

example : NoEmptyExtras setting :=
  ⟨by simp [setting], by simp [setting, Dict.get], fun p v o x ds d h hds hd => by
    rcases depends h hds hd with h | h <;> simp [h.2]⟩

example : OneSpelling setting := by
  have key : ∀ a, Mentioned setting a → lower a = ['r'] ∨ lower a = ['a'] ∨ lower a = ['b'] := by
    intro a h
    cases h with
    | root => left; decide
    | override n e h => simp [setting, Dict.get] at h
    | dependency n v o x ds d ho hds hd =>
      rcases depends ho hds hd with h | h <;> rw [h.1]
      · right; left; decide
      · right; right; decide
  intro a b ha hb h
  rw [← key_lower a, ← key_lower b] at h
  rcases key a ha with h1 | h1 | h1 <;> rcases key b hb with h2 | h2 | h2 <;> rw [h1, h2] at h ⊢ <;> revert h <;> decide

example : UrlsAnswered setting := fun n v o h => by simp [setting] at h

/-- The hypotheses are met, with a plan for the packages and an installed package of another name. -/
def examplePlan : Plan Nat :=
  ⟨[.repo ['r'] (ResolverExample.ver 0), .repo ['a'] (ResolverExample.ver 1), .repo ['b'] (ResolverExample.ver 0), .installed ⟨['c'], ResolverExample.ver 7, .copy, none⟩], [], []⟩

example : ∃ out, resolve (SolverExample.sets 3) setting ⟨fun _ _ => 0, fun _ l => l⟩ 30 = .ok out ∧
    PlanOf (fun v => ResolverExample.ver v.val) out examplePlan.packages ∧
    (∃ e, Demands setting out e ∧ e.name = ['A'] ∧ packageNameKey e.name ≠ some requestKey) := by
  have h : outcome 30 = .inr [(['r'], 0), (['a'], 1), (['b'], 0)] := by decide +kernel
  unfold outcome at h
  split at h
  · rename_i out hout
    simp only [Sum.inr.injEq] at h
    refine ⟨out, hout, ⟨examplePlan.packages.take 3, examplePlan.packages.drop 3, rfl, ?_, by decide⟩, ?_⟩
    · have : out.map (fun o => (packageNameKey o.name, ResolverExample.ver o.version.val)) =
          (out.map (fun o => (o.name, o.version))).map (fun e => (packageNameKey e.1, ResolverExample.ver e.2.val)) := by rw [List.map_map]; rfl
      rw [this, h]
      decide
    · have hr : (['r'], (0 : Fin 3)) ∈ out.map (fun o => (o.name, o.version)) := by rw [h]; exact List.mem_cons_self
      obtain ⟨o, ho, he⟩ := List.mem_map.1 hr
      simp only [Prod.mk.injEq] at he
      obtain ⟨m, w, hm | hm⟩ := resolver_packages hout o ho
      · simp [setting] at hm
      · obtain ⟨p, hp, hpn, e, hep, hon, -, hx⟩ := listed hm.1
        rw [he.1] at hon
        rw [← hon] at hpn
        simp only [packages, List.mem_cons, List.not_mem_nil, or_false] at hp
        rcases hp with rfl | rfl | rfl
        · simp only [List.mem_singleton] at hep
          subst hep
          exact ⟨_, .package o _ _ _ ho (hx []) List.mem_cons_self rfl (.inr ⟨rfl, rfl⟩), rfl, by decide⟩
        · exact absurd hpn (by decide)
        · exact absurd hpn (by decide)
  · cases h

example : ∀ i, Pkg.installed i ∈ examplePlan.packages → (dictBy Inst.key [⟨['c'], ResolverExample.ver 7, .copy, none⟩]).get i.key = some i := by
  intro i hi
  simp [examplePlan] at hi
  subst hi
  decide

namespace EndToEndExample

/-- r needs a<2, a 1 needs b, a 2 needs c. -/
def greedyPackages : List (Text × Nat × List (RDep VSpec)) :=
  [(['r'], 0, [{ name := ['a'], spec := ResolverExample.lt 2 }]), (['a'], 1, [{ name := ['b'], spec := .all }]),
    (['a'], 2, [{ name := ['c'], spec := .all }]), (['b'], 1, [])]

def greedySetting : Setting Ver VSpec := spelled greedyPackages

def greedySel (p : RPkg) : Ver := if p.name = ['r'] then ResolverExample.ver 0 else ResolverExample.ver 1

theorem greedy_depends {n : Text} {v : Ver} {o : Obj Ver VSpec} {x : List Text} {ds : List (RDep VSpec)} {d : RDep VSpec}
    (h : objectOf greedySetting n v = some o) (hds : o.dependencies x = some ds) (hd : d ∈ ds) :
    (d.name = ['a'] ∨ d.name = ['b'] ∨ d.name = ['c']) ∧ d.extras = none := by
  have h' : o ∈ greedySetting.list n := by
    unfold objectOf at h
    split at h
    · simp [greedySetting, spelled, ResolverExample.setting] at h
    · exact (mem_compatibles (List.mem_reverse.1 (List.mem_of_find?_eq_some h))).1
  simp only [greedySetting, spelled, List.mem_map, List.mem_reverse, List.mem_filter] at h'
  obtain ⟨p, ⟨hp, -⟩, rfl⟩ := h'
  simp only [Option.some.injEq] at hds
  subst hds
  simp only [greedyPackages, List.mem_cons, List.not_mem_nil, or_false] at hp
  rcases hp with rfl | rfl | rfl | rfl <;> simp at hd <;> subst hd <;> simp

theorem greedySetting_preferred : Preferred (problem specifiers greedySetting) [⟨['r'], none⟩, ⟨['a'], none⟩, ⟨['b'], none⟩] greedySel where
  root := by decide
  first := by decide +kernel
  offered := by decide +kernel
  standard p hp v hv := by
    have : v = ResolverExample.ver 0 ∨ v = ResolverExample.ver 1 ∨ v = ResolverExample.ver 2 := by
      revert v; revert p; decide +kernel
    rcases this with rfl | rfl | rfl
    · exact ⟨_, rfl, Greedy.Bare.candidate (SolverExample.ver_bare 0)⟩
    · exact ⟨_, rfl, Greedy.Bare.candidate (SolverExample.ver_bare 1)⟩
    · exact ⟨_, rfl, Greedy.Bare.candidate (SolverExample.ver_bare 2)⟩
  distinct := by decide +kernel
  deps := by
    have hd : ∀ p ∈ [(⟨['r'], none⟩ : RPkg), ⟨['a'], none⟩, ⟨['b'], none⟩],
        ((problem specifiers greedySetting).versions p).Pairwise (fun a b => a.eqv b = false) := by decide +kernel
    intro p hp
    simp only [List.mem_cons, List.not_mem_nil, or_false] at hp
    rcases hp with rfl | rfl | rfl
    · refine ⟨[(⟨['a'], none⟩, ResolverExample.lt 2)], rfl, ?_⟩
      intro q c hq
      simp only [List.mem_cons, List.not_mem_nil, or_false, Prod.mk.injEq] at hq
      obtain ⟨rfl, rfl⟩ := hq
      refine ⟨by decide, SolverExample.lt_wanted 2, by decide +kernel, .inl fun u hu => ?_⟩
      have := SolverExample.before_split hu (hd _ (by decide)) (a := [ResolverExample.ver 2]) (c := []) rfl
      simp at this; subst this; left; decide +kernel
    · refine ⟨[(⟨['b'], none⟩, .all)], rfl, ?_⟩
      intro q c hq
      simp only [List.mem_cons, List.not_mem_nil, or_false, Prod.mk.injEq] at hq
      obtain ⟨rfl, rfl⟩ := hq
      refine ⟨by decide, .all, rfl, .inl fun u hu => ?_⟩
      have := SolverExample.before_split hu (hd _ (by decide)) (a := []) (c := []) rfl
      simp at this
    · exact ⟨[], rfl, by simp⟩

end EndToEndExample

/-- The hypotheses of `install_found_partial` are met. -/
example : NoEmptyExtras greedySetting ∧ OneSpelling greedySetting ∧ UrlsAnswered greedySetting ∧
    (∀ a b, greedySetting.eqv a b = true → a.eqv b = true) ∧ ∀ n x, greedySel ⟨n, x⟩ = greedySel ⟨n, none⟩ := by
  refine ⟨⟨by decide, by simp [greedySetting, spelled, ResolverExample.setting, Dict.get], fun p v o x ds d h hds hd => ?_⟩, ?_, ?_, ?_, fun n x => rfl⟩
  · simp [(greedy_depends h hds hd).2]
  · have key : ∀ a, Mentioned greedySetting a → a ∈ [['r'], ['a'], ['b'], ['c']] := by
      intro a h
      cases h with
      | root => decide
      | override n e h => simp [greedySetting, spelled, ResolverExample.setting, Dict.get] at h
      | dependency n v o x ds d ho hds hd => rcases (greedy_depends ho hds hd).1 with h | h | h <;> rw [h] <;> decide
    have all : ∀ a ∈ [['r'], ['a'], ['b'], ['c']], ∀ b ∈ [['r'], ['a'], ['b'], ['c']], packageNameKey a = packageNameKey b → lower a = lower b := by decide
    exact fun a b ha hb => all a (key a ha) b (key b hb)
  · intro n v o h; simp [greedySetting, spelled, ResolverExample.setting] at h
  · intro a b h
    simp [greedySetting, spelled, ResolverExample.setting] at h
    subst h
    cases a <;> simp [Ver.eqv, SV.eqv_stage.refl]

/-- C103 fails for two spellings of one name: they are two packages for the resolver, which chooses a version for each, though no site can have both. -/
theorem install_spelling_violated : ∃ out, resolve specifiers twoSpellings ResolverExample.choices 30 = .ok out ∧
    out.map (fun o => (o.name, o.version)) = [(['r'], ResolverExample.ver 0), (['x'], ResolverExample.ver 1), (['y'], ResolverExample.ver 1), (['a', '-', 'b'], ResolverExample.ver 1), (['a', '-', 'b'], ResolverExample.ver 2)] ∧
    ∃ e f, Demands twoSpellings out e ∧ Demands twoSpellings out f ∧
      ∀ site : Dict Text (Inst Nat), ¬ (MetIn specifiers id site e ∧ MetIn specifiers id site f) := by
  have h : ResolverExample.outcome twoSpellings 30 = .inr [(['r'], ResolverExample.ver 0), (['x'], ResolverExample.ver 1), (['y'], ResolverExample.ver 1), (['a', '-', 'b'], ResolverExample.ver 1), (['a', '-', 'b'], ResolverExample.ver 2)] := by
    decide +kernel
  unfold ResolverExample.outcome at h
  split at h
  · rename_i out hout
    simp only [Sum.inr.injEq] at h
    have hobj : ∀ n, (∃ v, (n, v) ∈ out.map (fun o => (o.name, o.version))) → ∃ o ∈ out, o.name = n ∧ ∃ p ∈ twoSpelled, p.1 = n ∧ ∀ x, o.dependencies x = some p.2.2 := by
      rintro n ⟨v, hv⟩
      obtain ⟨o, ho, he⟩ := List.mem_map.1 hv
      simp only [Prod.mk.injEq] at he
      refine ⟨o, ho, he.1, ?_⟩
      obtain ⟨m, w, hm | hm⟩ := resolver_packages hout o ho
      · simp [twoSpellings, spelled, ResolverExample.setting] at hm
      · obtain ⟨hm, -⟩ := hm
        simp only [twoSpellings, spelled, List.mem_map, List.mem_reverse, List.mem_filter] at hm
        obtain ⟨p, ⟨hp, -⟩, rfl⟩ := hm
        exact ⟨p, hp, he.1, fun _ => rfl⟩
    obtain ⟨ox, hox, -, px, hpx, hpxn, hdx⟩ := hobj ['x'] ⟨_, by rw [h]; exact List.mem_cons_of_mem _ List.mem_cons_self⟩
    obtain ⟨oy, hoy, -, py, hpy, hpyn, hdy⟩ := hobj ['y'] ⟨_, by rw [h]; exact List.mem_cons_of_mem _ (List.mem_cons_of_mem _ List.mem_cons_self)⟩
    refine ⟨out, hout, h, { name := ['a', '-', 'b'], spec := ResolverExample.lt 2 }, { name := ['a', '_', 'b'], spec := ResolverExample.ge 2 },
      .package ox px.2.2 _ _ hox (hdx []) ?_ rfl (.inr ⟨rfl, rfl⟩), .package oy py.2.2 _ _ hoy (hdy []) ?_ rfl (.inr ⟨rfl, rfl⟩), ?_⟩
    · simp only [twoSpelled, List.mem_cons, List.not_mem_nil, or_false] at hpx
      rcases hpx with rfl | rfl | rfl | rfl | rfl <;> first | (exfalso; revert hpxn; decide) | simp
    · simp only [twoSpelled, List.mem_cons, List.not_mem_nil, or_false] at hpy
      rcases hpy with rfl | rfl | rfl | rfl | rfl <;> first | (exfalso; revert hpyn; decide) | simp
    · rintro site ⟨⟨k, i, v, hk, hi, hv, ha⟩, ⟨k', i', v', hk', hi', hv', ha'⟩⟩
      have e1 : packageNameKey ['a', '-', 'b'] = some ['a', '_', 'b'] := by decide
      have e2 : packageNameKey ['a', '_', 'b'] = some ['a', '_', 'b'] := by decide
      simp only [e1, e2, Option.some.injEq] at hk hk'
      subst hk hk'
      rw [hi] at hi'
      simp only [Option.some.injEq] at hi'
      subst hi'
      exact below_above hv ha hv' ha'
  · cases h

end Pkm
