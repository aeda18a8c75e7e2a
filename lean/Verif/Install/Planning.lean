import Verif.Install.Props
import Verif.Specifier.Lemmas
set_option linter.unusedVariables false
set_option linter.unusedSimpArgs false
set_option linter.unusedSectionVars false
/-
Property C22, planning: `plan_installation` and the repository it resolves against.
-/
namespace Pkm
open Install

namespace Spec

/-- What planning relies on: the resolver only selects packages that the repository offered for a
dependency of the package's name. -/
def SelectsOffered {D : Type} (I : DepInfo D) (R : Resolver D) : Prop :=
  ∀ m roots out, R m roots = .ok out → ∀ p ∈ out, ∃ d offered, m d = .ok offered ∧ p ∈ offered ∧ I.key d = p.key

end Spec
open Spec

variable {D : Type} [DecidableEq D]

namespace Install

theorem preRequested_get (pre : List (Inst D)) : ∀ (d : Dict Text D) (k : Text),
    (pre.map Inst.key).Nodup →
    (pre.foldl (fun d p => match p.request with | some r => d.put p.key r | none => d) d).get k =
      match pre.find? (fun p => decide (p.key = k)) with
      | some p => (match p.request with | some r => some r | none => d.get k)
      | none => d.get k := by
  induction pre with
  | nil => intro d k _; rfl
  | cons p pre ih =>
    intro d k hn
    simp only [List.map_cons, List.nodup_cons] at hn
    rw [List.foldl_cons, ih _ _ hn.2]
    by_cases hk : p.key = k
    · have hnf : pre.find? (fun p => decide (p.key = k)) = none := by
        rw [List.find?_eq_none]
        intro q hq hqk
        simp at hqk
        exact hn.1 (List.mem_map.2 ⟨q, hq, by rw [hqk, hk]⟩)
      rw [hnf]
      simp only [List.find?_cons, hk, decide_true]
      cases p.request with
      | none => rfl
      | some r => simp [Dict.get_put]
    · simp only [List.find?_cons, hk, decide_false]
      cases pre.find? (fun p => decide (p.key = k)) with
      | none => cases p.request <;> simp [Dict.get_put, hk]
      | some q =>
        dsimp only
        cases q.request with
        | some r => rfl
        | none => cases p.request <;> simp [Dict.get_put, hk]

theorem merge_get {V : Type} (new : Dict Text V) : ∀ (d : Dict Text V) (k : Text), Dict.Wf new →
    (new.foldl (fun d e => d.put e.1 e.2) d).get k = (new.get k).or (d.get k) := by
  induction new with
  | nil => intro d k _; rfl
  | cons e new ih =>
    obtain ⟨a, v⟩ := e
    intro d k hw
    simp only [Dict.Wf, Dict.keys, List.map_cons, List.nodup_cons] at hw
    rw [List.foldl_cons, ih _ _ hw.2, Dict.get_put]
    by_cases ha : a = k
    · subst ha
      have : Dict.get new a = none := (Dict.get_none_iff _ _).2 hw.1
      simp [Dict.get, this]
    · simp [Dict.get, ha]

theorem merge_wf {V : Type} (new : Dict Text V) : ∀ (d : Dict Text V), Dict.Wf d →
    Dict.Wf (new.foldl (fun d e => d.put e.1 e.2) d) := by
  induction new with
  | nil => intro d h; exact h
  | cons e new ih => intro d h; exact ih _ (Dict.wf_put _ _ _ h)

theorem preRequested_wf (pre : List (Inst D)) : ∀ (d : Dict Text D), Dict.Wf d →
    Dict.Wf (pre.foldl (fun d p => match p.request with | some r => d.put p.key r | none => d) d) := by
  induction pre with
  | nil => intro d h; exact h
  | cons p pre ih =>
    intro d h
    rw [List.foldl_cons]
    apply ih
    cases p.request with
    | none => exact h
    | some r => exact Dict.wf_put _ _ _ h

end Install

/-! ## The repository that is resolved against -/

/-- C22: on the fast path an installed package is offered in its installed version only. -/
theorem installed_offered_fast (I : DepInfo D) (repo : D → List (Pkg D)) (installed : Dict Text (Inst D))
    (unspecified : List Text) (d : D) (i : Inst D) (hk : I.key d ≠ requestKey)
    (hi : installed.get (I.key d) = some i) :
    installMatch I repo installed unspecified true d = .ok [.installed i] := by
  simp [installMatch, hk, hi]

/-- C22: on the slow path an installed package is offered in all versions of the repository, those equal
to the installed one first, otherwise in the order of the repository. -/
theorem installed_offered_slow (I : DepInfo D) (repo : D → List (Pkg D)) (installed : Dict Text (Inst D))
    (unspecified : List Text) (d : D) (i : Inst D) (hk : I.key d ≠ requestKey)
    (hi : installed.get (I.key d) = some i) :
    installMatch I repo installed unspecified false d =
      .ok ((repo d).filter (fun p => i.version.eqv p.version) ++
           (repo d).filter (fun p => !i.version.eqv p.version)) := by
  simp only [installMatch, hk, hi]
  simp only [if_false, Bool.false_eq_true]
  congr 1
  generalize repo d = ps
  have hins : ∀ (x : Pkg D) (a b : List (Pkg D)), (∀ y ∈ a, i.version.eqv y.version = true) →
      (∀ y ∈ b, i.version.eqv y.version = false) →
      insertBy (fun a b => decide ((if i.version.eqv a.version = true then 0 else 1) ≤
        (if i.version.eqv b.version = true then 0 else 1))) x (a ++ b) =
      if i.version.eqv x.version then x :: (a ++ b) else a ++ x :: b := by
    intro x a b ha hb
    cases hx : i.version.eqv x.version with
    | true =>
      simp only [if_true]
      cases hab : a ++ b with
      | nil => rfl
      | cons y ys => simp [insertBy, hx]
    | false =>
      simp only [Bool.false_eq_true, if_false]
      induction a with
      | nil =>
        cases b with
        | nil => rfl
        | cons y ys => simp [insertBy, hx, hb y (by simp)]
      | cons y a ih =>
        have hy := ha y (by simp)
        simp only [List.cons_append, insertBy, hx, hy]
        simp
        have := ih (fun z hz => ha z (by simp [hz]))
        simpa [hx] using this
  induction ps with
  | nil => rfl
  | cons x ps ih =>
    simp only [sortBy]
    rw [ih, hins]
    · cases hx : i.version.eqv x.version <;> simp [List.filter_cons, hx]
    · intro y hy; exact (List.mem_filter.1 hy).2
    · intro y hy; simpa using (List.mem_filter.1 hy).2

/-- C22: packages that are not installed are offered as in the repository, except that on the fast path a
package requested without a version must be in the repository. -/
theorem new_offered (I : DepInfo D) (repo : D → List (Pkg D)) (installed : Dict Text (Inst D))
    (unspecified : List Text) (d : D) (fast : Bool) (hk : I.key d ≠ requestKey)
    (hi : installed.get (I.key d) = none) (hu : fast = false ∨ I.key d ∉ unspecified) :
    installMatch I repo installed unspecified fast d = .ok (repo d) := by
  simp only [installMatch, hk, hi, if_false]
  rcases hu with rfl | hu
  · simp
  · simp [hu]

namespace Install

theorem withoutPatch_eq (v : SV) : v.withoutPatch = { v with release := v.release.take 2 } := by
  unfold SV.withoutPatch
  split
  · rfl
  · rename_i h
    rw [List.take_of_length_le (by omega)]

theorem withoutPatch_le (v : SV) : v.withoutPatch.eqv v = true ∨ v.withoutPatch.lt v = true := by
  rw [withoutPatch_eq]
  have hle : ∀ i, relAt (v.release.take 2) i ≤ relAt v.release i := by
    intro i
    unfold relAt
    by_cases h : i < 2
    · rw [List.getD_eq_getElem?_getD, List.getD_eq_getElem?_getD, List.getElem?_take_of_lt h]
      exact Nat.le_refl _
    · rw [List.getD_eq_getElem?_getD, List.getElem?_take_eq_none (by omega)]
      simp
  by_cases hs : RelSame (v.release.take 2) v.release
  · left
    rw [std_eq_iff]
    exact ⟨⟨rfl, hs, rfl, rfl, rfl⟩, rfl⟩
  · right
    rw [std_lt_by_release { v with release := v.release.take 2 } v rfl hs, SV.relBefore_iff]
    rcases SV.relTotal (v.release.take 2) v.release with h | h | h
    · exact absurd ((SV.relSame_iff _ _).2 h) hs
    · exact h
    · rw [← SV.relBefore_iff] at h
      obtain ⟨i, _, hi⟩ := h
      have := hle i
      omega

theorem maxLoop_mem : ∀ (ps : List (Pkg D)) (best : Pkg D), maxLoop ps best ∈ best :: ps := by
  intro ps
  induction ps with
  | nil => intro b; simp [maxLoop]
  | cons p ps ih =>
    intro b
    unfold maxLoop
    have := ih (if b.version.lt p.version then p else b)
    split at this
    · rename_i h; rw [if_pos h]
      rcases List.mem_cons.1 this with h | h <;> simp [h]
    · rename_i h; rw [if_neg h]
      rcases List.mem_cons.1 this with h | h <;> simp [h]

theorem maxLoop_ge : ∀ (ps : List (Pkg D)) (best : Pkg D), maxLoop ps best = best ∨
    best.version.lt (maxLoop ps best).version = true := by
  intro ps
  induction ps with
  | nil => intro b; exact Or.inl rfl
  | cons p ps ih =>
    intro b
    unfold maxLoop
    split
    · rename_i h
      rcases ih p with e | e
      · right; rw [e]; exact h
      · right; exact version_lt_trans _ _ _ h e
    · exact ih b

theorem maxLoop_max : ∀ (ps : List (Pkg D)) (best : Pkg D) (q : Pkg D), q ∈ best :: ps →
    (maxLoop ps best).version.lt q.version = false := by
  intro ps
  induction ps with
  | nil => intro b q hq; simp at hq; subst hq; exact version_lt_irrefl _
  | cons p ps ih =>
    intro b q hq
    unfold maxLoop
    split
    · rename_i h
      rcases List.mem_cons.1 hq with rfl | hq
      · have h1 := ih p p (by simp)
        cases h2 : (maxLoop ps p).version.lt q.version with
        | false => rfl
        | true => rw [version_lt_trans _ _ _ h2 h] at h1; exact h1
      · exact ih p q hq
    · rename_i h
      rcases List.mem_cons.1 hq with rfl | hq
      · exact ih q q (by simp)
      · rcases List.mem_cons.1 hq with rfl | hq
        · cases h2 : (maxLoop ps b).version.lt q.version with
          | false => rfl
          | true =>
            rcases maxLoop_ge ps b with e | e
            · rw [e] at h2; exact absurd h2 h
            · exact absurd (version_lt_trans _ _ _ e h2) h
        · exact ih b q (by simp [hq])

end Install

/-- C22: on the fast path a new package that is requested without a version is offered in a version `m`
that no other version of the repository exceeds, and in further versions of the repository only. For a
standard version `m` all the offered versions are at least `m` without its third and later components.
Nothing else than the repository's packages is offered, in the repository's order. -/
theorem latest_offered (I : DepInfo D) (repo : D → List (Pkg D)) (installed : Dict Text (Inst D))
    (unspecified : List Text) (d : D) (hk : I.key d ≠ requestKey)
    (hi : installed.get (I.key d) = none) (hu : I.key d ∈ unspecified) (hne : repo d ≠ []) :
    ∃ offered m, installMatch I repo installed unspecified true d = .ok offered ∧
      offered.Sublist (repo d) ∧ m ∈ offered ∧ (∀ q ∈ repo d, m.version.lt q.version = false) ∧
      (∀ v, m.version = .std v → ∀ q ∈ offered,
        (Ver.std { v with release := v.release.take 2 }).eqv q.version = true ∨
        (Ver.std { v with release := v.release.take 2 }).lt q.version = true) ∧
      (∀ s, m.version = .named s → ∀ q ∈ offered, m.version.eqv q.version = true) := by
  cases hr : repo d with
  | nil => exact absurd hr hne
  | cons p ps =>
    have hm : installMatch I repo installed unspecified true d =
        (match latestLimit (maxLoop ps p).version with
          | .error e => .error (.spec e)
          | .ok limit => .ok ((p :: ps).filter (fun q => limit.allows q.version))) := by
      simp [installMatch, hk, hi, hu, hr]
      cases latestLimit (maxLoop ps p).version <;> rfl
    rw [hm]
    have hmem := maxLoop_mem ps p
    have hmax := maxLoop_max ps p
    generalize maxLoop ps p = m at hmem hmax
    cases hv : m.version with
    | std v =>
      have hl : latestLimit (.std v) = .ok (.range (some v.withoutPatch) Option.none true false) := rfl
      rw [hl]
      refine ⟨_, m, rfl, List.filter_sublist, ?_, hmax, ?_, ?_⟩
      · rw [List.mem_filter]
        refine ⟨hmem, ?_⟩
        rw [hv]
        simp only [VSpec.allows, VSpec.rangeAllows, VSpec.endEq, Ver.eqv, Ver.lt, Ver.isPost]
        have hpost : v.withoutPatch.isPost = v.isPost := by unfold SV.withoutPatch SV.isPost; split <;> rfl
        simp only [hpost]
        rcases withoutPatch_le v with h | h
        · simp [h]
        · cases v.isPost <;> simp [h]
      · intro w hw q hq
        rw [hv] at hw
        simp at hw
        subst hw
        have hq' := (List.mem_filter.1 hq).2
        rw [withoutPatch_eq] at hq'
        simp only [VSpec.allows, VSpec.rangeAllows, VSpec.endEq] at hq'
        split at hq'
        · rename_i h; left; simpa using h
        · split at hq'
          · simp at hq'
          · right; simpa using hq'
      · intro n hn; rw [hv] at hn; simp at hn
    | named n =>
      refine ⟨_, m, rfl, List.filter_sublist, ?_, hmax, ?_, ?_⟩
      · rw [List.mem_filter]
        exact ⟨hmem, by rw [hv]; simp [VSpec.allows, VSpec.matchAllows, Ver.isLocal, Ver.withoutLocal, Ver.eqv]⟩
      · intro w hw; rw [hv] at hw; simp at hw
      · intro k hk' q hq
        have := (List.mem_filter.1 hq).2
        cases hqv : q.version with
        | named j =>
          rw [hqv] at this
          rw [hv]
          simpa [VSpec.allows, VSpec.matchAllows, Ver.isLocal, Ver.withoutLocal, Ver.eqv] using this
        | std j =>
          rw [hqv] at this
          simp [VSpec.allows, VSpec.matchAllows, Ver.isLocal, Ver.withoutLocal, Ver.eqv] at this
        | url u pr sc =>
          rw [hqv] at this
          rw [hv]
          simpa [VSpec.allows, VSpec.matchAllows, Ver.isLocal, Ver.withoutLocal] using this
    | url u pr sc =>
      refine ⟨_, m, rfl, List.filter_sublist, ?_, hmax, ?_, ?_⟩
      · rw [List.mem_filter]
        refine ⟨hmem, ?_⟩
        rw [hv]
        have := version_eq_equivalence.1 (Ver.url u pr sc)
        simpa [VSpec.allows, VSpec.matchAllows, Ver.isLocal, Ver.withoutLocal] using this
      · intro w hw; rw [hv] at hw; simp at hw
      · intro k hk'; rw [hv] at hk'; simp at hk'

/-- C22: on the fast path a new package that is requested without a version and that the repository does
not have makes planning fail with a `ValueError` (of `max`) instead of an unsolvable problem. -/
theorem missing_package_violated (I : DepInfo D) (repo : D → List (Pkg D)) (installed : Dict Text (Inst D))
    (unspecified : List Text) (d : D) (hk : I.key d ≠ requestKey)
    (hi : installed.get (I.key d) = none) (hu : I.key d ∈ unspecified) (hne : repo d = []) :
    installMatch I repo installed unspecified true d = .error .valueError := by
  simp [installMatch, hk, hi, hu, hne]

/-! ## Planning -/

namespace Install

theorem find_filter_key (installed : List (Inst D)) (updates : List Text) (hn : (installed.map Inst.key).Nodup)
    (i : Inst D) (hi : i ∈ installed) (hu : i.key ∉ updates) :
    (installed.filter (fun p => !updates.contains p.key)).find? (fun p => decide (p.key = i.key)) = some i := by
  cases hf : (installed.filter (fun p => !updates.contains p.key)).find? (fun p => decide (p.key = i.key)) with
  | none =>
    rw [List.find?_eq_none] at hf
    exact absurd (by simp) (hf i (by simp [List.mem_filter, hi, hu]))
  | some j =>
    have h1 := List.mem_of_find?_eq_some hf
    have h2 := List.find?_some hf
    simp [List.mem_filter] at h1 h2
    have e1 := dictBy_get_nodup Inst.key installed hn i hi
    have e2 := dictBy_get_nodup Inst.key installed hn j h1.1
    rw [h2, e1] at e2
    exact e2.symm

theorem filter_nodup (installed : List (Inst D)) (updates : List Text) (hn : (installed.map Inst.key).Nodup) :
    ((installed.filter (fun p => !updates.contains p.key)).map Inst.key).Nodup :=
  hn.sublist (List.Sublist.map _ List.filter_sublist)

theorem match_installed (I : DepInfo D) (repo : D → List (Pkg D)) (d0 : Dict Text (Inst D))
    (unspecified : List Text) (fast : Bool) (d : D) (offered : List (Pkg D))
    (hrepo : ∀ d, ∀ p ∈ repo d, ∃ k v, p = .repo k v)
    (h : installMatch I repo d0 unspecified fast d = .ok offered) (i : Inst D) (hi : Pkg.installed i ∈ offered) :
    d0.get (I.key d) = some i := by
  have hno : ∀ l : List (Pkg D), (∀ p ∈ l, p ∈ repo d) → Pkg.installed i ∉ l := by
    intro l hl hm
    obtain ⟨k, v, e⟩ := hrepo d _ (hl _ hm)
    simp at e
  unfold installMatch at h
  split at h
  · simp at h; subst h; simp at hi
  · split at h
    · rename_i j hj
      split at h
      · simp at h; subst h; simp at hi; rw [hi]; exact hj
      · simp at h
        subst h
        exact absurd hi (hno _ (fun p hp => (sortBy_perm _ _).mem_iff.1 hp))
    · split at h
      · split at h
        · simp at h
        · rename_i p ps hr
          split at h
          · simp at h
          · simp at h
            subst h
            exact absurd hi (hno _ (fun p hp => by rw [hr]; exact (List.mem_filter.1 hp).1))
      · simp at h
        subst h
        exact absurd hi (hno _ (fun p hp => hp))

/-- The packages that the fast path puts into the plan under the name of an installed package. -/
theorem match_fast_key (I : DepInfo D) (repo : D → List (Pkg D)) (d0 : Dict Text (Inst D))
    (unspecified : List Text) (d : D) (offered : List (Pkg D)) (i : Inst D)
    (h : installMatch I repo d0 unspecified true d = .ok offered) (hk : d0.get (I.key d) = some i) (p : Pkg D)
    (hp : p ∈ offered) (hu : p.isUserRequest = false) : p = .installed i := by
  unfold installMatch at h
  split at h
  · simp at h; subst h; simp at hp; subst hp; simp [Pkg.isUserRequest] at hu
  · rw [hk] at h
    simp at h
    subst h
    simpa using hp

theorem planned_of_all (packages : List (Pkg D)) (k : Text) (q : Pkg D) (hq : q ∈ packages)
    (hk : q.key = k) (hu : q.isUserRequest = false)
    (hall : ∀ p ∈ packages, p.key = k → p.isUserRequest = false → p = q) : planned packages k = some q := by
  cases hp : planned packages k with
  | none =>
    unfold planned at hp
    rw [List.getLast?_eq_none_iff, List.filter_eq_nil_iff] at hp
    exact absurd (by simp [hk, hu]) (hp q hq)
  | some p =>
    obtain ⟨h1, h2, h3⟩ := planned_facts _ _ _ hp
    rw [hall p h3 h2 h1]

end Install

/-- C22, adding packages (the slow path never gives a plan): the plan can be executed in any order of
its tasks, it leaves every installed package that is not listed in `updates` in its version, and changes
nothing but its user request, to the last of the new requests for it if there is one. Missing: packages
listed in `updates`, see `plan_updates_violated`. -/
theorem fast_plan_keeps_installed_partial (I : DepInfo D) (fastR : Resolver D) (repo : D → List (Pkg D))
    (installed : List (Inst D)) (deps : List D) (userRequested : Bool) (updates unspecified : List Text)
    (plan : Plan D) (auto : Text → StoreMode)
    (hn : (installed.map Inst.key).Nodup) (hreq : ∀ i ∈ installed, i.key ≠ requestKey)
    (hR : SelectsOffered I fastR)
    (hrepo : ∀ d, ∀ p ∈ repo d, ∃ k v, p = .repo k v)
    (hplan : planInstallation I fastR (fun _ _ => .error .unsolvable) repo installed deps userRequested updates
      unspecified = .ok plan)
    (order : List (Pkg D × Op)) (ho : order.Perm (tasks plan installed)) :
    ∃ site, runTasks auto plan order (dictBy Inst.key installed) = some site ∧
      ∀ i ∈ installed, i.key ∉ updates → site.get i.key = some { i with request :=
        if userRequested then ((deps.filter (fun d => decide (I.key d = i.key))).getLast?).or i.request
        else i.request } := by
  unfold planInstallation at hplan
  dsimp only at hplan
  generalize hpre : installed.filter (fun p => !updates.contains p.key) = pre at hplan
  generalize hun : (if unspecified.isEmpty = true then List.map I.key (List.filter I.unspecified deps) else unspecified) = un at hplan
  have hpren : (pre.map Inst.key).Nodup := by rw [← hpre]; exact filter_nodup installed updates hn
  have hpremem : ∀ j, j ∈ pre ↔ j ∈ installed ∧ j.key ∉ updates := by
    intro j; rw [← hpre]; simp [List.mem_filter]
  cases hf : fastR (installMatch I repo (dictBy Inst.key pre) un true) (Dict.values (dictBy I.key deps)) with
  | error e => rw [hf] at hplan; cases e <;> simp at hplan
  | ok inst =>
    rw [hf] at hplan
    simp only [Except.ok.injEq] at hplan
    have hpk : plan.packages = inst ++ (pre.filter (fun p => !(inst.map Pkg.key).contains p.key)).map Pkg.installed := by
      rw [← hplan]
    have hst : plan.storeModes = [] := by rw [← hplan]
    have hrq : plan.requests = if userRequested then merge (preRequested pre) (dictBy I.key deps)
        else preRequested pre := by
      rw [← hplan]
    -- what the resolver selected
    have hsel : ∀ p ∈ inst, ∀ i, (dictBy Inst.key pre).get p.key = some i → p.isUserRequest = false → p = .installed i := by
      intro p hp i hi hu
      obtain ⟨d, offered, h1, h2, h3⟩ := hR _ _ _ hf p hp
      rw [← h3] at hi
      exact match_fast_key I repo _ un d offered i h1 hi p h2 hu
    have hin : ∀ i, Pkg.installed i ∈ plan.packages → i ∈ pre := by
      intro i hi
      rw [hpk] at hi
      rcases List.mem_append.1 hi with hi | hi
      · obtain ⟨d, offered, h1, h2, h3⟩ := hR _ _ _ hf _ hi
        exact (dictBy_get_key _ _ _ _ (match_installed I repo _ un true d offered hrepo h1 i h2)).2
      · simp [List.mem_filter] at hi
        exact hi.1
    have hin' : ∀ i, Pkg.installed i ∈ plan.packages → (dictBy Inst.key installed).get i.key = some i := by
      intro i hi
      exact dictBy_get_nodup _ _ hn i ((hpremem i).1 (hin i hi)).1
    obtain ⟨site, h1, h2, _⟩ := run_any_order auto plan installed hin' order ho
    refine ⟨site, h1, ?_⟩
    intro i hi hu
    have hip : i ∈ pre := (hpremem i).2 ⟨hi, hu⟩
    have hplanned : planned plan.packages i.key = some (.installed i) := by
      have hall : ∀ p ∈ plan.packages, p.key = i.key → p.isUserRequest = false → p = .installed i := by
        intro p hp hk hur
        rw [hpk] at hp
        rcases List.mem_append.1 hp with hp | hp
        · exact hsel p hp i (by rw [hk]; exact dictBy_get_nodup _ _ hpren i hip) hur
        · obtain ⟨j, hj, rfl⟩ := List.mem_map.1 hp
          have hjp := (List.mem_filter.1 hj).1
          have e1 := dictBy_get_nodup _ _ hpren i hip
          have e2 := dictBy_get_nodup _ _ hpren j hjp
          simp only [Pkg.key] at hk
          rw [hk, e1] at e2
          simp at e2; rw [e2]
      apply planned_of_all plan.packages i.key (.installed i) ?_ rfl rfl hall
      by_cases hc : ∃ p ∈ inst, p.key = i.key ∧ p.isUserRequest = false
      · obtain ⟨p, hp, hk, hur⟩ := hc
        have := hall p (by rw [hpk]; exact List.mem_append_left _ hp) hk hur
        rw [← this, hpk]
        exact List.mem_append_left _ hp
      · by_cases hc2 : i.key ∈ inst.map Pkg.key
        · obtain ⟨p, hp, hk⟩ := List.mem_map.1 hc2
          have hur : p.isUserRequest = true := by
            cases h : p.isUserRequest with
            | true => rfl
            | false => exact absurd ⟨p, hp, hk, h⟩ hc
          cases p with
          | userRequest => exact absurd hk.symm (hreq i hi)
          | installed j => simp [Pkg.isUserRequest] at hur
          | repo a b => simp [Pkg.isUserRequest] at hur
        · rw [hpk]
          apply List.mem_append_right
          apply List.mem_map_of_mem
          simp only [List.mem_filter]
          exact ⟨hip, by simpa using hc2⟩
    have h := h2 i.key _ hplanned
    rw [dictBy_get_nodup _ _ hn i hi] at h
    have hget : plan.requests.get i.key = if userRequested then
        ((deps.filter (fun d => decide (I.key d = i.key))).getLast?).or i.request else i.request := by
      have hp0 : (preRequested pre).get i.key = i.request := by
        refine (preRequested_get pre [] i.key hpren).trans ?_
        rw [← hpre, find_filter_key installed updates hn i hi hu]
        dsimp only
        cases i.request <;> rfl
      rw [hrq]
      cases userRequested with
      | false => simpa using hp0
      | true =>
        simp only [if_true]
        rw [merge, merge_get _ _ _ (dictBy_wf _ _), hp0, dictBy_get]
    have hso : storeOk plan i (.installed i) = true := by simp [storeOk, hst, Dict.get]
    have hve : i.version.eqv (Pkg.installed i).version = true := version_eq_equivalence.1 _
    by_cases hro : requestOk plan i = true
    · simp [opFor, decideOp, hve, hso, hro, effect] at h
      rw [← h]
      unfold requestOk at hro
      rw [hget] at hro
      congr 1
      cases i with | mk ik iv is ir =>
      congr 1
      dsimp only at *
      cases userRequested with
      | false => simp
      | true =>
        simp only [if_true] at hro ⊢
        cases hg : (deps.filter (fun d => decide (I.key d = ik))).getLast? with
        | none => simp
        | some r => rw [hg] at hro; simpa using hro
    · simp [opFor, decideOp, hve, hso, hro, effect, Pkg.key] at h
      rw [← h, hget]

namespace Install

theorem mem_values_iff {K V : Type} [DecidableEq K] (d : Dict K V) (hw : Dict.Wf d) (v : V) :
    v ∈ Dict.values d ↔ ∃ k, d.get k = some v := by
  unfold Dict.values
  rw [List.mem_map]
  constructor
  · rintro ⟨⟨k, w⟩, he, rfl⟩; exact ⟨k, Dict.mem_get _ _ _ hw he⟩
  · rintro ⟨k, hk⟩; exact ⟨(k, v), Dict.get_mem _ _ _ hk, rfl⟩

end Install

/-- C22, when packages cannot just be added: the installation is then resolved for the new requests
together with the requests of all the installed packages that are not listed in `updates` and for which
there is no new request. -/
theorem slow_plan_roots (I : DepInfo D) (slowR : Resolver D) (repo : D → List (Pkg D))
    (installed : List (Inst D)) (deps : List D) (userRequested : Bool) (updates unspecified : List Text)
    (plan : Plan D) (hn : (installed.map Inst.key).Nodup)
    (hplan : planInstallation I (fun _ _ => .error .unsolvable) slowR repo installed deps userRequested updates
      unspecified = .ok plan) :
    ∃ offers roots, slowR offers roots = .ok plan.packages ∧
      ∀ r, r ∈ roots ↔ (deps.filter (fun d => decide (I.key d = I.key r))).getLast? = some r ∨
        ∃ i ∈ installed, i.key ∉ updates ∧ i.request = some r ∧ ∀ d ∈ deps, I.key d ≠ i.key := by
  unfold planInstallation at hplan
  dsimp only at hplan
  generalize hpre : installed.filter (fun p => !updates.contains p.key) = pre at hplan
  generalize hun : (if unspecified.isEmpty = true then List.map I.key (List.filter I.unspecified deps) else unspecified) = un at hplan
  have hpren : (pre.map Inst.key).Nodup := by rw [← hpre]; exact filter_nodup installed updates hn
  have hpremem : ∀ j, j ∈ pre ↔ j ∈ installed ∧ j.key ∉ updates := by
    intro j; rw [← hpre]; simp [List.mem_filter]
  cases hs : slowR (installMatch I repo (dictBy Inst.key pre) un false)
      (Dict.values (merge (preRequested pre) (dictBy I.key deps))) with
  | error e => rw [hs] at hplan; simp at hplan
  | ok inst =>
    rw [hs] at hplan
    simp only [Except.ok.injEq] at hplan
    refine ⟨_, _, hs.trans (by rw [← hplan]), ?_⟩
    intro r
    have hwf : Dict.Wf (merge (preRequested pre) (dictBy I.key deps)) :=
      merge_wf _ _ (preRequested_wf pre [] (by simp [Dict.Wf, Dict.keys]))
    rw [mem_values_iff _ hwf]
    have hget : ∀ k, (merge (preRequested pre) (dictBy I.key deps)).get k =
        ((deps.filter (fun d => decide (I.key d = k))).getLast?).or
          (match pre.find? (fun p => decide (p.key = k)) with
            | some p => p.request
            | none => none) := by
      intro k
      rw [merge, merge_get _ _ _ (dictBy_wf _ _), dictBy_get]
      congr 1
      refine (preRequested_get pre [] k hpren).trans ?_
      cases pre.find? (fun p => decide (p.key = k)) with
      | none => rfl
      | some p => dsimp only; cases p.request <;> rfl
    simp only [hget]
    constructor
    · rintro ⟨k, hk⟩
      cases hl : (deps.filter (fun d => decide (I.key d = k))).getLast? with
      | some x =>
        rw [hl] at hk
        simp at hk; subst hk
        have hm := List.mem_of_getLast? hl
        simp [List.mem_filter] at hm
        left; rw [hm.2]; exact hl
      | none =>
        rw [hl] at hk
        simp at hk
        rw [List.getLast?_eq_none_iff, List.filter_eq_nil_iff] at hl
        right
        split at hk
        · rename_i p hp
          have h1 := List.mem_of_find?_eq_some hp
          have h2 := List.find?_some hp
          simp at h2
          have := (hpremem p).1 h1
          exact ⟨p, this.1, this.2, hk, fun d hd e => hl d hd (by simp [e, h2])⟩
        · simp at hk
    · rintro (hr | ⟨i, hi, hu, hr, hd⟩)
      · exact ⟨I.key r, by rw [hr]; rfl⟩
      · refine ⟨i.key, ?_⟩
        have : (deps.filter (fun d => decide (I.key d = i.key))).getLast? = none := by
          rw [List.getLast?_eq_none_iff, List.filter_eq_nil_iff]
          intro d hd'; simpa using hd d hd'
        rw [this]
        have := find_filter_key installed updates hn i hi hu
        rw [hpre] at this
        rw [this]
        simpa using hr

section
private def w1 : Ver := .std { release := [1] }
private def w2 : Ver := .std { release := [1, 4, 2] }
private def w3 : Ver := .std { release := [1, 4] }
private def w4 : Ver := .std { release := [1, 3, 9] }
private def na : Text := ['a']
private def nb : Text := ['b']
private def nc : Text := ['c']
private def jA : Inst Nat := ⟨na, w1, .copy, some 0⟩
private def jC : Inst Nat := ⟨nc, w1, .copy, none⟩
/-- Requests are numbers: 0 asks for a, 1 for b, 2 for c. -/
private def info : DepInfo Nat := ⟨fun d => if d = 0 then na else if d = 1 then nb else nc, fun _ => true⟩
private def repo1 : Nat → List (Pkg Nat) := fun d =>
  if d = 1 then [.repo nb w4, .repo nb w3, .repo nb w2] else [.repo (info.key d) w1]
/-- A resolver for packages without dependencies: the first offer for every request. -/
private def pick : Resolver Nat := fun m roots =>
  match roots.mapM (fun d => m d) with
  | .ok os => .ok (os.flatMap (·.take 1))
  | .error e => .error e

/-- b is installed next to a and c; of its versions 1.3.9, 1.4 and 1.4.2 the first is too old. -/
example : installMatch info repo1 [] [nb] true 1 = .ok [.repo nb w3, .repo nb w2] := rfl

private def plan2 : Plan Nat := ⟨[.repo nb w3, .installed jA, .installed jC], [(na, 0), (nb, 1)], []⟩

example : planInstallation info pick (fun _ _ => .error .unsolvable) repo1 [jA, jC] [1] true [] [] = .ok plan2 ∧
    runTasks (fun _ => .copy) plan2 (tasks plan2 [jA, jC]) (dictBy Inst.key [jA, jC]) =
      some [(na, jA), (nc, jC), (nb, ⟨nb, w3, .copy, some 1⟩)] := by
  refine ⟨?_, by decide⟩
  rfl

/-- C22: a package listed in `updates` that the new requests do not need is removed, although the user
had requested it: installing b with a listed for update removes a. -/
theorem plan_updates_violated : ∃ plan,
    planInstallation info pick pick repo1 [jA] [1] true [na] [] = .ok plan ∧
    (jA.request = some 0) ∧ (computeOps plan [jA]).contains (.installed jA, .remove) = true ∧
    runTasks (fun _ => .copy) plan (tasks plan [jA]) (dictBy Inst.key [jA]) =
      some [(nb, ⟨nb, w3, .copy, some 1⟩)] :=
  ⟨⟨[.repo nb w3], [(nb, 1)], []⟩, rfl, rfl, by decide, by decide⟩
end

end Pkm
