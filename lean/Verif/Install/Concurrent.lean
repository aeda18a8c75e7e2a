import Verif.Install.Props
import Verif.Install.ExecutionProps
set_option linter.unusedVariables false
set_option linter.unusedSimpArgs false
set_option linter.unusedSectionVars false
/-
C22 and C97 together: the operations of a plan (package_installation.py 217-263) executed by the caller and the workers
(265-339), for all schedules.
-/
namespace Pkm
open Install

namespace PlanRun

variable {D E : Type} [DecidableEq D]

/-- The operation of a task in the terms of `Execution` (package_installation.py 322-331): `cur` is the entry of the package
before, which `update_at` looks at (package.py 190). -/
def taskOp (auto : Text → StoreMode) (plan : Plan D) (t : Pkg D × Install.Op) (cur : Option (Inst D)) : PlanRun.Op (Inst D) :=
  let store := (Dict.get plan.storeModes t.1.key).getD .auto
  let request := Dict.get plan.requests t.1.key
  match t with
  | (.repo k v, .install) => .install ⟨k, v, resolveStore auto k store, request⟩
  | (.repo k v, .update) => .replace ⟨k, v, resolveStore auto k store, match request with
      | some r => some r
      | none => cur.bind (·.request)⟩
  | (.installed _, .update) => .mark (fun i => { i with request := request })
  | (.installed _, .remove) => .remove
  | _ => .mark id

/-- A task as a job: `fails` are the failures of its phases, `unsupported` the exception of a method that a package does not
have (package.py 181) or that does not apply. -/
def taskJob (auto : Text → StoreMode) (plan : Plan D) (before : Dict Text (Inst D)) (serial : Pkg D → Bool) (fails : Text → Nat → Option E) (unsupported : E)
    (t : Pkg D × Install.Op) : Job (Inst D) E :=
  ⟨t.1.key, taskOp auto plan t (before.get t.1.key), serial t.1,
    fun k => if (effect auto plan t (before.get t.1.key)).isNone then some unsupported else fails t.1.key k⟩

/-- The execution of a plan in a site. -/
def planEnv (auto : Text → StoreMode) (plan : Plan D) (installed : List (Inst D)) (mode : Mode) (threads procs : Nat) (isExc : E → Bool)
    (serial : Pkg D → Bool) (fails : Text → Nat → Option E) (unsupported : E) : Env (Inst D) E :=
  ⟨mode, (tasks plan installed).map (taskJob auto plan (dictBy Inst.key installed) serial fails unsupported), threads, procs, isExc⟩

theorem taskOp_effect (auto : Text → StoreMode) (plan : Plan D) (t : Pkg D × Install.Op) (cur r : Option (Inst D))
    (h : effect auto plan t cur = some r) (hs : t.2 ≠ .skip) : Spec.opAfter (taskOp auto plan t cur) cur = r := by
  obtain ⟨p, op⟩ := t
  cases p <;> cases op <;> simp_all [effect, taskOp, Spec.opAfter]
  cases hq : plan.requests.get (Pkg.repo (D := D) _ _).key <;> rw [hq] at h <;> exact h

theorem planEnv_apart (auto : Text → StoreMode) (plan : Plan D) (installed : List (Inst D)) (mode : Mode) (threads procs : Nat) (isExc : E → Bool)
    (serial : Pkg D → Bool) (fails : Text → Nat → Option E) (unsupported : E) :
    Spec.PlanApart (planEnv auto plan installed mode threads procs isExc serial fails unsupported) := by
  unfold Spec.PlanApart planEnv
  rw [List.map_map]
  have := (computeOps_keys plan installed).1
  exact this.sublist (List.Sublist.map _ List.filter_sublist)

end PlanRun
open PlanRun Spec

variable {D E : Type} [DecidableEq D]

/-- C97: an execution that returns has, whatever the schedule, the result of running the tasks one after the other. -/
theorem plan_run_refines (auto : Text → StoreMode) (plan : Plan D) (installed : List (Inst D)) (mode : Mode) (threads procs : Nat)
    (isExc : E → Bool) (serial : Pkg D → Bool) (fails : Text → Nat → Option E) (unsupported : E)
    (hin : ∀ i, Pkg.installed i ∈ plan.packages → (dictBy Inst.key installed).get i.key = some i) (s : State (Inst D) E)
    (hr : PlanReached (planEnv auto plan installed mode threads procs isExc serial fails unsupported) (dictBy Inst.key installed).get s)
    (hm : s.main = .returned) :
    ∃ site, runTasks auto plan (tasks plan installed) (dictBy Inst.key installed) = some site ∧ ∀ k, s.site k = site.get k := by
  obtain ⟨h1, h2⟩ := plan_run_returns _ _ (planEnv_apart auto plan installed mode threads procs isExc serial fails unsupported) s hr hm
  obtain ⟨site, hs, _⟩ := run_any_order auto plan installed hin (tasks plan installed) (List.Perm.refl _)
  refine ⟨site, hs, ?_⟩
  have hnd : ((tasks plan installed).map (·.1.key)).Nodup := (computeOps_keys plan installed).1.sublist (List.Sublist.map _ List.filter_sublist)
  have heff : ∀ t ∈ tasks plan installed, ∃ r, effect auto plan t ((dictBy Inst.key installed).get t.1.key) = some r := by
    intro t ht
    have hj := (h1 _ (List.mem_map.2 ⟨t, ht, rfl⟩)).1
    cases he : effect auto plan t ((dictBy Inst.key installed).get t.1.key) with
    | some r => exact ⟨r, rfl⟩
    | none =>
      have hx := hj 0 (by cases h : (taskJob auto plan (dictBy Inst.key installed) serial fails unsupported t).op <;> simp [opParts])
      simp [taskJob, he] at hx
  obtain ⟨site', hs', h3, h4⟩ := runTasks_spec auto plan (tasks plan installed) (dictBy Inst.key installed) hnd heff
  rw [hs] at hs'
  cases hs'
  intro k
  by_cases hk : k ∈ (tasks plan installed).map (·.1.key)
  · obtain ⟨t, ht, rfl⟩ := List.mem_map.1 hk
    have hsk : t.2 ≠ .skip := by
      unfold tasks at ht
      have := List.mem_filter.1 ht
      simpa using this.2
    have hj := (h1 _ (List.mem_map.2 ⟨t, ht, rfl⟩)).2
    have hop := taskOp_effect auto plan t _ _ (h3 t ht) hsk
    rw [← hop]
    exact hj
  · rw [h4 k hk]
    apply h2
    intro j hj
    obtain ⟨t, ht, rfl⟩ := List.mem_map.1 hj
    exact fun e => hk (List.mem_map.2 ⟨t, ht, e⟩)

/-- C22, C97: an execution that returns leaves exactly the planned packages, in the planned versions and with the requests of
the plan, whatever the mode, the number of workers and the schedule. -/
theorem plan_run_reaches_plan (auto : Text → StoreMode) (plan : Plan D) (installed : List (Inst D)) (mode : Mode) (threads procs : Nat)
    (isExc : E → Bool) (serial : Pkg D → Bool) (fails : Text → Nat → Option E) (unsupported : E)
    (hin : ∀ i, Pkg.installed i ∈ plan.packages → (dictBy Inst.key installed).get i.key = some i) (s : State (Inst D) E)
    (hr : PlanReached (planEnv auto plan installed mode threads procs isExc serial fails unsupported) (dictBy Inst.key installed).get s)
    (hm : s.main = .returned) (k : Text) :
    match planned plan.packages k with
    | none => s.site k = none
    | some p => ∃ i, s.site k = some i ∧ i.key = k ∧ i.version.eqv p.version = true ∧ ∀ r, plan.requests.get k = some r → i.request = some r := by
  obtain ⟨site, hs, hk⟩ := plan_run_refines auto plan installed mode threads procs isExc serial fails unsupported hin s hr hm
  obtain ⟨site', hs', h⟩ := plan_executes auto plan installed hin (tasks plan installed) (List.Perm.refl _)
  rw [hs] at hs'
  cases hs'
  have := h k
  rw [hk k]
  exact this

/-- C97: if no operation fails, every schedule can be continued until the execution returns, and no schedule raises. -/
theorem plan_run_no_failure (auto : Text → StoreMode) (plan : Plan D) (installed : List (Inst D)) (mode : Mode) (threads procs : Nat)
    (isExc : E → Bool) (serial : Pkg D → Bool) (unsupported : E) (ht : 0 < threads) (hp : 0 < procs)
    (hin : ∀ i, Pkg.installed i ∈ plan.packages → (dictBy Inst.key installed).get i.key = some i) (s : State (Inst D) E)
    (hr : PlanReached (planEnv auto plan installed mode threads procs isExc serial (fun _ _ => none) unsupported) (dictBy Inst.key installed).get s) :
    s.main = .returned ∨ ∃ a s', step (planEnv auto plan installed mode threads procs isExc serial (fun _ _ => none) unsupported) s a = some s' := by
  have hapart := planEnv_apart (E := E) auto plan installed mode threads procs isExc serial (fun _ _ => none) unsupported
  by_cases he : Ended s
  · rcases he with he | ⟨e, he⟩
    · exact .inl he
    · exfalso
      obtain ⟨pre, post, j, hj, hf, _⟩ := plan_run_raises _ _ hapart s hr e he
      have hmem : j ∈ (planEnv auto plan installed mode threads procs isExc serial (fun _ _ => none) unsupported).jobs := by rw [hj]; simp
      obtain ⟨t, ht, rfl⟩ := List.mem_map.1 hmem
      obtain ⟨site, hs, _⟩ := run_any_order auto plan installed hin (tasks plan installed) (List.Perm.refl _)
      have heff : ∃ r, effect auto plan t ((dictBy Inst.key installed).get t.1.key) = some r := by
        obtain ⟨c1, c2, c3, c4⟩ := computeOps_keys plan installed
        have ht' : t ∈ computeOps plan installed := by unfold tasks at ht; exact (List.mem_filter.1 ht).1
        rcases c4 t ht' with ⟨p, hp, hk, e⟩ | ⟨_, i, _, e⟩
        · obtain ⟨hu, hpk, hpm⟩ := planned_facts _ _ _ hp
          obtain ⟨i, hi, _⟩ := effect_opFor auto plan t.1.key ((dictBy Inst.key installed).get t.1.key) p hu hpk
            (fun i hi => (dictBy_get_key _ _ _ _ hi).1) (by intro i e; subst e; rw [← hpk]; exact hin i hpm)
          rw [← e] at hi
          exact ⟨_, hi⟩
        · rw [e]; exact ⟨none, rfl⟩
      obtain ⟨r, hreff⟩ := heff
      obtain ⟨k, _, hk, _⟩ := hf
      simp [taskJob, hreff] at hk
  · exact .inr (plan_run_progress _ _ hapart ht hp s hr he)

/-- C22, C97: a package that is installed as the plan wants it is never touched: not during the execution, not if it fails,
not if the program is killed. -/
theorem plan_run_untouched (auto : Text → StoreMode) (plan : Plan D) (installed : List (Inst D)) (mode : Mode) (threads procs : Nat)
    (isExc : E → Bool) (serial : Pkg D → Bool) (fails : Text → Nat → Option E) (unsupported : E) (s : State (Inst D) E)
    (hr : PlanReached (planEnv auto plan installed mode threads procs isExc serial fails unsupported) (dictBy Inst.key installed).get s)
    (i : Inst D) (p : Pkg D) (hi : (dictBy Inst.key installed).get i.key = some i) (hp : planned plan.packages i.key = some p)
    (hv : i.version.eqv p.version = true) (hs : ∀ m, plan.storeModes.get i.key = some m → m = .auto ∨ m = i.store)
    (hq : ∀ r, plan.requests.get i.key = some r → i.request = some r) : s.site i.key = some i := by
  obtain ⟨_, h2⟩ := plan_run_states _ _ (planEnv_apart auto plan installed mode threads procs isExc serial fails unsupported) s hr
  rw [← hi]
  apply h2
  intro j hj hk
  obtain ⟨t, ht, rfl⟩ := List.mem_map.1 hj
  have hk : t.1.key = i.key := hk
  unfold tasks at ht
  obtain ⟨ht1, ht2⟩ := List.mem_filter.1 ht
  obtain ⟨hu, hpk, hpm⟩ := planned_facts _ _ _ hp
  have hs' : storeOk plan i p = true := by
    unfold storeOk
    rw [hpk]
    cases hg : plan.storeModes.get i.key with
    | none => simp
    | some m => rcases hs m hg with rfl | rfl <;> simp
  have hr' : requestOk plan i = true := by
    unfold requestOk
    cases hg : plan.requests.get i.key with
    | none => rfl
    | some r => simpa using hq r hg
  rcases (computeOps_keys plan installed).2.2.2 t ht1 with ⟨q, hq1, _, e⟩ | ⟨hn, _⟩
  · rw [hk, hp] at hq1
    cases hq1
    rw [hk, hi] at e
    simp [opFor, decideOp, hv, hs', hr'] at e
    rw [e] at ht2
    simp at ht2
  · rw [hk, hp] at hn
    cases hn

namespace PlanRun

def v (n : Nat) : Ver := .std { release := [n] }

/-- `a` 1 and `b` 1 and `c` 1 are installed, `c` for the user. -/
def demoSite : List (Inst Nat) := [⟨['a'], v 1, .copy, none⟩, ⟨['b'], v 1, .copy, none⟩, ⟨['c'], v 1, .copy, some 3⟩]

/-- The plan: `a` 2, `c` as it is and `d` for the user; not `b`. -/
def demoPlan : Plan Nat := ⟨[.repo ['a'] (v 2), .installed ⟨['c'], v 1, .copy, some 3⟩, .repo ['d'] (v 1), .userRequest], [(['c'], 3), (['d'], 4)], []⟩

def demoEnv (fails : Text → Nat → Option Nat) : Env (Inst Nat) Nat :=
  planEnv (fun _ => .copy) demoPlan demoSite .thread 2 2 (fun _ => true) (fun _ => false) fails 99

end PlanRun

/-- The plan of the example, executed by two workers. -/
example : (∀ i, Pkg.installed i ∈ demoPlan.packages → (dictBy Inst.key demoSite).get i.key = some i) ∧
    ∃ s : State (Inst Nat) Nat, PlanReached (demoEnv (fun _ _ => none)) (dictBy Inst.key demoSite).get s ∧ s.main = .returned ∧
      s.site ['a'] = some ⟨['a'], v 2, .copy, none⟩ ∧ s.site ['b'] = none ∧ s.site ['c'] = some ⟨['c'], v 1, .copy, some 3⟩ ∧
      s.site ['d'] = some ⟨['d'], v 1, .copy, some 4⟩ := by
  refine ⟨?_, _, run_reached _ _ ([.main, .main, .main, .main, .worker 0, .worker 1, .worker 0, .worker 1, .worker 1, .worker 2, .worker 2, .worker 2, .worker 0, .worker 0] ++
    List.replicate 4 .main) _ .start, by decide +kernel, by decide +kernel, by decide +kernel, by decide +kernel, by decide +kernel⟩
  intro i hi
  simp [demoPlan] at hi
  subst hi
  rfl

end Pkm
