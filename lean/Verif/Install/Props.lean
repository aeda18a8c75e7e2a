import Verif.Install.Lemmas
import Verif.Version.Props
set_option linter.unusedVariables false
set_option linter.unusedSimpArgs false
set_option linter.unusedSectionVars false
/-
Property C22: installation plans.
-/
namespace Pkm
open Install

namespace Spec

/-- The package that a plan wants under the given name: the last one of that name in the list (the
artificial request package does not count). -/
def planned {D : Type} (packages : List (Pkg D)) (k : Text) : Option (Pkg D) :=
  (packages.filter (fun p => !p.isUserRequest && decide (p.key = k))).getLast?

end Spec
open Spec

variable {D : Type} [DecidableEq D]

namespace Install

theorem toinstall_get (plan : Plan D) (k : Text) :
    (dictBy Pkg.key (plan.packages.filter (fun p => !p.isUserRequest))).get k = planned plan.packages k := by
  rw [dictBy_get, List.filter_filter]
  unfold planned
  congr 1
  apply List.filter_congr
  intro p _
  cases p.isUserRequest <;> simp

/-- The operations as one list over the planned packages followed by the removals. -/
theorem computeOps_eq (plan : Plan D) (installed : List (Inst D)) :
    ∃ left : Dict Text (Inst D), Dict.Wf left ∧ KeyOk Inst.key left ∧
      (∀ j, left.get j = if (planned plan.packages j).isSome then none else (dictBy Inst.key installed).get j) ∧
      computeOps plan installed =
        (dictBy Pkg.key (plan.packages.filter (fun p => !p.isUserRequest))).map
          (fun e => opFor plan ((dictBy Inst.key installed).get e.1) e.2) ++
        left.map (fun e => (.installed e.2, .remove)) := by
  obtain ⟨h1, h2, h3, h4⟩ := opsLoop_spec plan
    (dictBy Pkg.key (plan.packages.filter (fun p => !p.isUserRequest))) (dictBy Inst.key installed)
    (dictBy_wf _ _) (keyOk_dictBy _ _) (dictBy_wf _ _) (keyOk_dictBy _ _)
  refine ⟨_, h2, h3, ?_, ?_⟩
  · intro j
    rw [h4, ← toinstall_get]
    by_cases hj : j ∈ Dict.keys (dictBy Pkg.key (plan.packages.filter (fun p => !p.isUserRequest)))
    · obtain ⟨v, hv⟩ := (mem_keys_iff _ _).1 hj
      simp [hj, hv]
    · rw [(Dict.get_none_iff _ _).2 hj]; simp [hj]
  · unfold computeOps
    dsimp only
    rw [h1]
    simp [Dict.values]

theorem opFor_key (plan : Plan D) (installed : List (Inst D)) (e : Text × Pkg D) (he : e.2.key = e.1) :
    (opFor plan ((dictBy Inst.key installed).get e.1) e.2).1.key = e.1 := by
  cases h : (dictBy Inst.key installed).get e.1 with
  | none => exact he
  | some i =>
    have := (dictBy_get_key _ _ _ _ h).1
    unfold opFor
    rw [decideOp_key]
    · exact he
    · rw [this, he]

theorem computeOps_keys (plan : Plan D) (installed : List (Inst D)) :
    ((computeOps plan installed).map (·.1.key)).Nodup ∧
    (∀ k p, planned plan.packages k = some p →
      opFor plan ((dictBy Inst.key installed).get k) p ∈ computeOps plan installed) ∧
    (∀ k i, planned plan.packages k = none → (dictBy Inst.key installed).get k = some i →
      (Pkg.installed i, Op.remove) ∈ computeOps plan installed) ∧
    (∀ t ∈ computeOps plan installed,
      (∃ p, planned plan.packages t.1.key = some p ∧ p.key = t.1.key ∧
        t = opFor plan ((dictBy Inst.key installed).get t.1.key) p) ∨
      (planned plan.packages t.1.key = none ∧ ∃ i, (dictBy Inst.key installed).get t.1.key = some i ∧
        t = (.installed i, .remove))) := by
  obtain ⟨left, hw, hk, hl, hc⟩ := computeOps_eq plan installed
  rw [hc]
  have hT := toinstall_get plan
  have hTw := dictBy_wf Pkg.key (plan.packages.filter (fun p => !p.isUserRequest))
  have hTk := keyOk_dictBy Pkg.key (plan.packages.filter (fun p => !p.isUserRequest))
  generalize hTd : dictBy Pkg.key (plan.packages.filter (fun p => !p.isUserRequest)) = T at hT hTw hTk
  have hkeys1 : (T.map (fun e => opFor plan ((dictBy Inst.key installed).get e.1) e.2)).map (·.1.key) = Dict.keys T := by
    rw [List.map_map]
    apply List.map_congr_left
    intro e he
    exact opFor_key plan installed e (hTk e he)
  have hkeys2 : (left.map (fun e => (Pkg.installed e.2, Op.remove))).map (·.1.key) = Dict.keys left := by
    rw [List.map_map]
    apply List.map_congr_left
    intro e he
    exact hk e he
  refine ⟨?_, ?_, ?_, ?_⟩
  · rw [List.map_append, hkeys1, hkeys2, List.nodup_append]
    refine ⟨hTw, hw, ?_⟩
    intro a ha b hb e
    subst e
    obtain ⟨v, hv⟩ := (mem_keys_iff _ _).1 ha
    obtain ⟨w, hw'⟩ := (mem_keys_iff _ _).1 hb
    rw [hl, ← hT, hv] at hw'
    simp at hw'
  · intro k p hp
    rw [← hT] at hp
    exact List.mem_append_left _ (List.mem_map.2 ⟨(k, p), Dict.get_mem _ _ _ hp, rfl⟩)
  · intro k i hp hi
    apply List.mem_append_right
    have : left.get k = some i := by rw [hl, hp]; simpa using hi
    exact List.mem_map.2 ⟨(k, i), Dict.get_mem _ _ _ this, rfl⟩
  · intro t ht
    rcases List.mem_append.1 ht with ht | ht
    · obtain ⟨e, he, rfl⟩ := List.mem_map.1 ht
      left
      have hek := hTk e he
      rw [opFor_key plan installed e hek]
      refine ⟨e.2, ?_, hek, rfl⟩
      rw [← hT]
      exact Dict.mem_get _ _ _ hTw he
    · obtain ⟨e, he, rfl⟩ := List.mem_map.1 ht
      right
      have hek := hk e he
      have hg := Dict.mem_get _ _ _ hw he
      rw [hl] at hg
      have e1 : (Pkg.installed e.2, Op.remove).1.key = e.1 := hek
      simp only [e1]
      cases hp : planned plan.packages e.1 with
      | some p => rw [hp] at hg; simp at hg
      | none => rw [hp] at hg; exact ⟨rfl, e.2, by simpa using hg, rfl⟩

/-- The entry that a planned package ends up with. -/
theorem effect_opFor (auto : Text → StoreMode) (plan : Plan D) (k : Text) (cur : Option (Inst D)) (p : Pkg D)
    (hu : p.isUserRequest = false) (hk : p.key = k) (hcur : ∀ i, cur = some i → i.key = k)
    (hin : ∀ i, p = .installed i → cur = some i) :
    ∃ i, effect auto plan (opFor plan cur p) cur = some (some i) ∧ i.key = k ∧
      i.version.eqv p.version = true ∧ ∀ r, plan.requests.get k = some r → i.request = some r := by
  have hrefl : ∀ v : Ver, v.eqv v = true := fun v => version_eq_equivalence.1 v
  cases cur with
  | none =>
    cases p with
    | installed i => exact absurd (hin i rfl) (by simp)
    | userRequest => simp [Pkg.isUserRequest] at hu
    | repo k' v =>
      simp only [Pkg.key] at hk; subst hk
      exact ⟨_, rfl, rfl, hrefl _, fun r hr => hr⟩
  | some i =>
    have hi := hcur i rfl
    unfold opFor decideOp
    dsimp only
    split
    · rename_i hv
      split
      · rename_i hs
        refine ⟨i, rfl, hi, hv, ?_⟩
        intro r hr
        have h2 : requestOk plan i = true := by simp at hs; exact hs.2
        unfold requestOk at h2
        rw [hi, hr] at h2
        simpa using h2
      · rename_i hs
        split
        · rename_i hs2
          refine ⟨{ i with request := plan.requests.get k }, ?_, hi, hv, fun r hr => hr⟩
          simp [effect, Pkg.key, hi]
        · cases p with
          | userRequest => simp [Pkg.isUserRequest] at hu
          | repo k' v =>
            simp only [Pkg.key] at hk; subst hk
            refine ⟨_, rfl, rfl, hrefl _, ?_⟩
            intro r hr
            simp [Pkg.key, hr]
          | installed j =>
            have hj := hin j rfl
            simp at hj; subst hj
            refine ⟨{ i with request := plan.requests.get k }, ?_, hi, hrefl _, fun r hr => hr⟩
            simp [effect, Pkg.key, hi]
    · rename_i hv
      cases p with
      | userRequest => simp [Pkg.isUserRequest] at hu
      | repo k' v =>
        simp only [Pkg.key] at hk; subst hk
        refine ⟨_, rfl, rfl, hrefl _, ?_⟩
        intro r hr
        simp [Pkg.key, hr]
      | installed j =>
        have hj := hin j rfl
        simp at hj; subst hj
        exact absurd (hrefl _) hv

theorem planned_facts (packages : List (Pkg D)) (k : Text) (p : Pkg D) (h : planned packages k = some p) :
    p.isUserRequest = false ∧ p.key = k ∧ p ∈ packages := by
  have := List.mem_of_getLast? h
  simp [List.mem_filter] at this
  exact ⟨this.2.1, this.2.2, this.1⟩

/-- Every task can run and what it does to its entry; tasks may run in any order. -/
theorem run_any_order (auto : Text → StoreMode) (plan : Plan D) (installed : List (Inst D))
    (hin : ∀ i, Pkg.installed i ∈ plan.packages → (dictBy Inst.key installed).get i.key = some i)
    (order : List (Pkg D × Op)) (ho : order.Perm (tasks plan installed)) :
    ∃ site, runTasks auto plan order (dictBy Inst.key installed) = some site ∧
      (∀ k p, planned plan.packages k = some p →
        effect auto plan (opFor plan ((dictBy Inst.key installed).get k) p) ((dictBy Inst.key installed).get k)
          = some (site.get k)) ∧
      ∀ k, planned plan.packages k = none → site.get k = none := by
  obtain ⟨c1, c2, c3, c4⟩ := computeOps_keys plan installed
  have hsub : ∀ t ∈ order, t ∈ computeOps plan installed ∧ t.2 ≠ .skip := by
    intro t ht
    have := (ho.mem_iff).1 ht
    unfold tasks at this
    simpa [List.mem_filter] using this
  have hnd : (order.map (·.1.key)).Nodup := by
    rw [(ho.map _).nodup_iff]
    exact c1.sublist (List.Sublist.map _ List.filter_sublist)
  have heff : ∀ t ∈ computeOps plan installed,
      ∃ r, effect auto plan t ((dictBy Inst.key installed).get t.1.key) = some r := by
    intro t ht
    rcases c4 t ht with ⟨p, hp, hk, e⟩ | ⟨_, i, _, e⟩
    · obtain ⟨hu, hpk, hpm⟩ := planned_facts _ _ _ hp
      obtain ⟨i, hi, _⟩ := effect_opFor auto plan t.1.key ((dictBy Inst.key installed).get t.1.key) p hu hpk
        (fun i hi => (dictBy_get_key _ _ _ _ hi).1) (by
          intro i e; subst e; rw [← hpk]; exact hin i hpm)
      rw [← e] at hi
      exact ⟨_, hi⟩
    · rw [e]; exact ⟨none, rfl⟩
  obtain ⟨site, hs, h1, h2⟩ := runTasks_spec auto plan order (dictBy Inst.key installed) hnd
    (fun t ht => heff t (hsub t ht).1)
  refine ⟨site, hs, ?_, ?_⟩
  · intro k p hp
    obtain ⟨hu, hpk, hpm⟩ := planned_facts _ _ _ hp
    have hm := c2 k p hp
    have hkey : (opFor plan ((dictBy Inst.key installed).get k) p).1.key = k :=
      opFor_key plan installed (k, p) hpk
    by_cases hskip : (opFor plan ((dictBy Inst.key installed).get k) p).2 = .skip
    · have hnot : k ∉ order.map (·.1.key) := by
        intro hk
        obtain ⟨t, ht, hte⟩ := List.mem_map.1 hk
        have ht' := hsub t ht
        rcases c4 t ht'.1 with ⟨q, hq, _, e⟩ | ⟨hn, _⟩
        · rw [hte, hp] at hq
          simp at hq; subst hq
          rw [hte] at e
          rw [← e] at hskip
          exact ht'.2 hskip
        · rw [hte, hp] at hn; simp at hn
      rw [h2 k hnot]
      generalize hg : opFor plan ((dictBy Inst.key installed).get k) p = t at hskip
      obtain ⟨t1, t2⟩ := t
      simp at hskip; subst hskip
      simp [effect]
    · have hmem : opFor plan ((dictBy Inst.key installed).get k) p ∈ order := by
        rw [ho.mem_iff]
        unfold tasks
        simp [List.mem_filter, hm, hskip]
      have := h1 _ hmem
      rw [hkey] at this
      exact this
  · intro k hp
    cases hi : (dictBy Inst.key installed).get k with
    | none =>
      have hnot : k ∉ order.map (·.1.key) := by
        intro hk
        obtain ⟨t, ht, hte⟩ := List.mem_map.1 hk
        rcases c4 t (hsub t ht).1 with ⟨q, hq, _, e⟩ | ⟨hn, i, hi', _⟩
        · rw [hte, hp] at hq; simp at hq
        · rw [hte, hi] at hi'; simp at hi'
      rw [h2 k hnot, hi]
    | some i =>
      have hmem : (Pkg.installed i, Op.remove) ∈ order := by
        rw [ho.mem_iff]
        unfold tasks
        simp [List.mem_filter, c3 k i hp hi]
      have := h1 _ hmem
      have hik := (dictBy_get_key _ _ _ _ hi).1
      simp only [Pkg.key, hik] at this
      simp [effect] at this
      exact this.symm

end Install

/-! ## C22 -/

/-- C22: no package gets two operations. A package is installed exactly if it is planned and not
installed, removed exactly if it is installed and not planned, and updated or skipped exactly if it is
both. -/
theorem plan_operations (plan : Plan D) (installed : List (Inst D)) :
    ((computeOps plan installed).map (·.1.key)).Nodup ∧
    ∀ k,
      ((∃ p, p.key = k ∧ (p, Op.install) ∈ computeOps plan installed) ↔
        (planned plan.packages k).isSome ∧ ∀ i ∈ installed, i.key ≠ k) ∧
      ((∃ p, p.key = k ∧ (p, Op.remove) ∈ computeOps plan installed) ↔
        planned plan.packages k = none ∧ ∃ i ∈ installed, i.key = k) ∧
      ((∃ p, p.key = k ∧ ((p, Op.update) ∈ computeOps plan installed ∨ (p, Op.skip) ∈ computeOps plan installed)) ↔
        (planned plan.packages k).isSome ∧ ∃ i ∈ installed, i.key = k) := by
  obtain ⟨c1, c2, c3, c4⟩ := computeOps_keys plan installed
  refine ⟨c1, ?_⟩
  intro k
  have hnone : (dictBy Inst.key installed).get k = none ↔ ∀ i ∈ installed, i.key ≠ k := dictBy_get_none _ _ _
  have hsome : (∃ i, (dictBy Inst.key installed).get k = some i) ↔ ∃ i ∈ installed, i.key = k := by
    constructor
    · rintro ⟨i, hi⟩; obtain ⟨a, b⟩ := dictBy_get_key _ _ _ _ hi; exact ⟨i, b, a⟩
    · rintro ⟨i, hi, rfl⟩; exact dictBy_get_isSome _ _ i hi
  have hdec : ∀ i p, (decideOp plan i p).2 = .update ∨ (decideOp plan i p).2 = .skip := by
    intro i p; unfold decideOp
    repeat' split
    all_goals simp
  -- every operation on `k`, by the two cases
  have hall : ∀ t ∈ computeOps plan installed, t.1.key = k →
      ((planned plan.packages k).isSome ∧ (dictBy Inst.key installed).get k = none ∧ t.2 = .install) ∨
      ((planned plan.packages k).isSome ∧ (∃ i, (dictBy Inst.key installed).get k = some i) ∧
        (t.2 = .update ∨ t.2 = .skip)) ∨
      (planned plan.packages k = none ∧ (∃ i, (dictBy Inst.key installed).get k = some i) ∧ t.2 = .remove) := by
    intro t ht hk
    rcases c4 t ht with ⟨p, hp, _, e⟩ | ⟨hp, i, hi, e⟩
    · rw [hk] at hp e
      rw [hp]
      cases hg : (dictBy Inst.key installed).get k with
      | none => rw [hg] at e; left; exact ⟨rfl, rfl, by rw [e]; rfl⟩
      | some i => rw [hg] at e; right; left; exact ⟨rfl, ⟨i, rfl⟩, by rw [e]; exact hdec i p⟩
    · rw [hk] at hp hi
      right; right
      exact ⟨hp, ⟨i, hi⟩, by rw [e]⟩
  have hkeyof : ∀ p, planned plan.packages k = some p →
      (opFor plan ((dictBy Inst.key installed).get k) p).1.key = k := fun p hp =>
    opFor_key plan installed (k, p) (planned_facts _ _ _ hp).2.1
  refine ⟨?_, ?_, ?_⟩
  · constructor
    · rintro ⟨p, hp, hm⟩
      rcases hall _ hm hp with ⟨a, b, _⟩ | ⟨_, _, h⟩ | ⟨_, _, h⟩
      · exact ⟨a, hnone.1 b⟩
      · simp at h
      · simp at h
    · rintro ⟨hp, hi⟩
      obtain ⟨p, hp⟩ := Option.isSome_iff_exists.1 hp
      have := c2 k p hp
      have hk := hkeyof p hp
      rw [hnone.2 hi] at this hk
      exact ⟨p, hk, this⟩
  · constructor
    · rintro ⟨p, hp, hm⟩
      rcases hall _ hm hp with ⟨_, _, h⟩ | ⟨_, _, h⟩ | ⟨a, b, _⟩
      · simp at h
      · simp at h
      · exact ⟨a, hsome.1 b⟩
    · rintro ⟨hp, hi⟩
      obtain ⟨i, hi⟩ := hsome.2 hi
      exact ⟨.installed i, (dictBy_get_key _ _ _ _ hi).1, c3 k i hp hi⟩
  · constructor
    · rintro ⟨p, hp, hm⟩
      rcases hm with hm | hm <;>
      · rcases hall _ hm hp with ⟨_, _, h⟩ | ⟨a, b, h⟩ | ⟨_, _, h⟩
        · simp at h
        · exact ⟨a, hsome.1 b⟩
        · simp at h
    · rintro ⟨hp, hi⟩
      obtain ⟨p, hp⟩ := Option.isSome_iff_exists.1 hp
      obtain ⟨i, hi⟩ := hsome.2 hi
      have hm := c2 k p hp
      have hk := hkeyof p hp
      rw [hi] at hm hk
      refine ⟨_, hk, ?_⟩
      have e : ∀ t : Pkg D × Op, t = (t.1, t.2) := fun _ => rfl
      rcases hdec i p with h | h
      · left; rw [← h]; exact hm
      · right; rw [← h]; exact hm

/-- C22: executing a plan, in whatever order its tasks happen to run, succeeds and leaves exactly the
planned packages, each in the planned version and, if the plan has a user request for it, marked with
that request. (`hin`: the plan takes already installed packages from this site.) -/
theorem plan_executes (auto : Text → StoreMode) (plan : Plan D) (installed : List (Inst D))
    (hin : ∀ i, Pkg.installed i ∈ plan.packages → (dictBy Inst.key installed).get i.key = some i)
    (order : List (Pkg D × Op)) (ho : order.Perm (tasks plan installed)) :
    ∃ site, runTasks auto plan order (dictBy Inst.key installed) = some site ∧
      ∀ k, match planned plan.packages k with
        | none => site.get k = none
        | some p => ∃ i, site.get k = some i ∧ i.key = k ∧ i.version.eqv p.version = true ∧
            ∀ r, plan.requests.get k = some r → i.request = some r := by
  obtain ⟨site, h1, h2, h3⟩ := run_any_order auto plan installed hin order ho
  refine ⟨site, h1, ?_⟩
  intro k
  cases hp : planned plan.packages k with
  | none => exact h3 k hp
  | some p =>
    obtain ⟨hu, hpk, hpm⟩ := planned_facts _ _ _ hp
    obtain ⟨i, e, a, b, c⟩ := effect_opFor auto plan k ((dictBy Inst.key installed).get k) p hu hpk
      (fun i hi => (dictBy_get_key _ _ _ _ hi).1) (by
        intro i e; subst e; rw [← hpk]; exact hin i hpm)
    rw [h2 k p hp] at e
    simp at e
    exact ⟨i, e, a, b, c⟩

/-- C22: a package that is installed in the planned version, in the store mode asked for and with the
user request asked for, is left exactly as it is. -/
theorem plan_keeps_untouched (auto : Text → StoreMode) (plan : Plan D) (installed : List (Inst D))
    (hin : ∀ i, Pkg.installed i ∈ plan.packages → (dictBy Inst.key installed).get i.key = some i)
    (order : List (Pkg D × Op)) (ho : order.Perm (tasks plan installed)) (i : Inst D) (p : Pkg D)
    (hi : (dictBy Inst.key installed).get i.key = some i) (hp : planned plan.packages i.key = some p)
    (hv : i.version.eqv p.version = true)
    (hs : ∀ m, plan.storeModes.get i.key = some m → m = .auto ∨ m = i.store)
    (hr : ∀ r, plan.requests.get i.key = some r → i.request = some r) :
    ∃ site, runTasks auto plan order (dictBy Inst.key installed) = some site ∧ site.get i.key = some i := by
  obtain ⟨site, h1, h2, h3⟩ := run_any_order auto plan installed hin order ho
  refine ⟨site, h1, ?_⟩
  have h := h2 i.key p hp
  obtain ⟨hu, hpk, hpm⟩ := planned_facts _ _ _ hp
  have hs' : storeOk plan i p = true := by
    unfold storeOk
    rw [hpk]
    cases hg : plan.storeModes.get i.key with
    | none => simp
    | some m => rcases hs m hg with rfl | rfl <;> simp
  have hr' : requestOk plan i = true := by
    unfold requestOk
    cases hg : plan.requests.get i.key with
    | none => rfl
    | some r => simpa using hr r hg
  rw [hi] at h
  simp [opFor, decideOp, hv, hs', hr', effect] at h
  exact h.symm

/-- C22: a store mode asked for is the store mode afterwards, for packages that come from a repository.
Missing: a plan that selects the already installed package object, see `plan_store_mode_violated`. -/
theorem plan_store_mode_partial (auto : Text → StoreMode) (plan : Plan D) (installed : List (Inst D))
    (hin : ∀ i, Pkg.installed i ∈ plan.packages → (dictBy Inst.key installed).get i.key = some i)
    (order : List (Pkg D × Op)) (ho : order.Perm (tasks plan installed)) (k : Text) (v : Ver) (m : StoreMode)
    (hp : planned plan.packages k = some (.repo k v)) (hm : plan.storeModes.get k = some m) (ha : m ≠ .auto) :
    ∃ site i, runTasks auto plan order (dictBy Inst.key installed) = some site ∧ site.get k = some i ∧
      i.store = m := by
  obtain ⟨site, h1, h2, h3⟩ := run_any_order auto plan installed hin order ho
  have h := h2 k _ hp
  have hres : resolveStore auto k m = m := by cases m <;> simp_all [resolveStore]
  cases hg : (dictBy Inst.key installed).get k with
  | none =>
    rw [hg] at h
    simp [opFor, effect, Pkg.key, hm, hres] at h
    exact ⟨site, _, h1, h.symm, rfl⟩
  | some i =>
    rw [hg] at h
    have hik := (dictBy_get_key _ _ _ _ hg).1
    have hso : storeOk plan i (.repo k v) = decide (m = i.store) := by
      simp [storeOk, Pkg.key, hm, ha]
      cases m <;> cases i.store <;> simp at ha ⊢ <;> rfl
    by_cases hst : m = i.store
    · simp only [opFor, decideOp, hso, hst, Pkg.version] at h
      split at h
      · split at h
        · simp [effect] at h
          exact ⟨site, i, h1, h.symm, hst.symm⟩
        · split at h
          · simp [effect] at h
            exact ⟨site, _, h1, h.symm, hst.symm⟩
          · simp [effect, Pkg.key, hm, hres] at h
            exact ⟨site, _, h1, h.symm, rfl⟩
      · simp [effect, Pkg.key, hm, hres] at h
        exact ⟨site, _, h1, h.symm, rfl⟩
    · simp only [opFor, decideOp, hso, hst, Pkg.version] at h
      simp [effect, Pkg.key, hm, hres] at h
      exact ⟨site, _, h1, h.symm, rfl⟩

/-- C22: a package that was requested by the user and for which the plan has no new request keeps its old
request, also if it is updated to another version. Missing: a plan that selects the already installed package
object and asks for another store mode, see `plan_store_mode_violated`. -/
theorem plan_keeps_request_partial (auto : Text → StoreMode) (plan : Plan D) (installed : List (Inst D))
    (hin : ∀ i, Pkg.installed i ∈ plan.packages → (dictBy Inst.key installed).get i.key = some i)
    (order : List (Pkg D × Op)) (ho : order.Perm (tasks plan installed)) (k : Text) (v : Ver) (i : Inst D)
    (hi : (dictBy Inst.key installed).get k = some i)
    (hp : planned plan.packages k = some (.repo k v)) (hr : plan.requests.get k = none) :
    ∃ site i', runTasks auto plan order (dictBy Inst.key installed) = some site ∧ site.get k = some i' ∧
      i'.request = i.request := by
  obtain ⟨site, h1, h2, h3⟩ := run_any_order auto plan installed hin order ho
  have h := h2 k _ hp
  have hik := (dictBy_get_key _ _ _ _ hi).1
  have hro : requestOk plan i = true := by simp [requestOk, hik, hr]
  rw [hi] at h
  simp only [opFor, decideOp, hro, Pkg.version] at h
  split at h
  · split at h
    · simp [effect] at h
      exact ⟨site, i, h1, h.symm, rfl⟩
    · split at h
      · rename_i hh; simp at hh
      · simp [effect, Pkg.key, hr] at h
        exact ⟨site, _, h1, h.symm, rfl⟩
  · simp [effect, Pkg.key, hr] at h
    exact ⟨site, _, h1, h.symm, rfl⟩

section
private def v1 : Ver := .std { release := [1] }
private def v2 : Ver := .std { release := [2] }
private def ka : Text := ['a']
private def kb : Text := ['b']
private def kc : Text := ['c']
private def kd : Text := ['d']
private def iA : Inst Nat := ⟨ka, v1, .copy, some 7⟩
private def iB : Inst Nat := ⟨kb, v1, .copy, none⟩
private def iC : Inst Nat := ⟨kc, v1, .editable, none⟩
/-- a stays, b is updated and becomes requested, c goes, d comes. -/
private def plan1 : Plan Nat :=
  ⟨[.userRequest, .repo kb v2, .installed iA, .repo kd v1], [(kb, 9)], []⟩

example : computeOps plan1 [iA, iB, iC] =
    [(.repo kb v2, .update), (.installed iA, .skip), (.repo kd v1, .install), (.installed iC, .remove)] := by
  decide

/-- The hypotheses of `plan_executes` hold for it, for the reverse order of the tasks. -/
example : (∀ i, Pkg.installed i ∈ plan1.packages → (dictBy Inst.key [iA, iB, iC]).get i.key = some i) ∧
    ((tasks plan1 [iA, iB, iC]).reverse).Perm (tasks plan1 [iA, iB, iC]) ∧
    (tasks plan1 [iA, iB, iC]).length = 3 := by
  refine ⟨?_, List.reverse_perm _, by decide⟩
  intro i hi
  simp [plan1] at hi
  subst hi
  decide

example : runTasks (fun _ => .copy) plan1 (tasks plan1 [iA, iB, iC]).reverse (dictBy Inst.key [iA, iB, iC]) =
    some [(ka, iA), (kb, ⟨kb, v2, .copy, some 9⟩), (kd, ⟨kd, v1, .copy, none⟩)] := by decide

/-- The hypotheses of `plan_keeps_request_partial`: `a` goes from 1 to 2 and is still requested. -/
example : (dictBy Inst.key [iA, iB]).get ka = some iA ∧ planned [.repo ka v2, .installed iB] ka = some (.repo ka v2) ∧
    runTasks (fun _ => .copy) ⟨[.repo ka v2, .installed iB], [], []⟩
      (tasks ⟨[.repo ka v2, .installed iB], [], []⟩ [iA, iB]) (dictBy Inst.key [iA, iB]) =
    some [(ka, ⟨ka, v2, .copy, some 7⟩), (kb, iB)] := by decide

/-- C22: a store mode asked for an installed package that the plan keeps is ignored: the package is
"updated" by changing its user request mark only, which it loses. -/
theorem plan_store_mode_violated : ∃ (plan : Plan Nat) (i : Inst Nat),
    (dictBy Inst.key [i]).get i.key = some i ∧ plan.packages = [.installed i] ∧
    plan.storeModes.get i.key = some .editable ∧ i.request = some 7 ∧
    runTasks (fun _ => .copy) plan (tasks plan [i]) (dictBy Inst.key [i]) =
      some [(i.key, { i with store := .copy, request := none })] :=
  ⟨⟨[.installed iA], [], [(ka, .editable)]⟩, iA, by decide, rfl, by decide, rfl, by decide⟩
end

end Pkm
