import Verif.Projects.Editing
import Verif.Specifier.Spec
import Verif.VersionText.Clauses
import Verif.Version.Props
set_option linter.unusedVariables false
set_option linter.unusedSimpArgs false
/-
Property C64: what adding and removing dependencies writes, and what remains when it fails.
-/
namespace Pkm
namespace Spec
open Projects Reqs

/-- The requirement that is written for a requested one: itself if it has a constraint, otherwise the range for the installed
version. -/
def written (inst : Option Text → Option Desc) (d : Dep) : Dep :=
  match d.spec with
  | .all => match inst (packageNameKey d.name) with
    | some p => { name := p.name, spec := generalized p.version }
    | none => d
  | _ => d

/-- The requested requirements name different packages. -/
def DistinctNames (ds : List Dep) : Prop := (ds.map (fun d => packageNameKey d.name)).Nodup

/-- Every requested package is installed under its name. -/
def AllInstalled (inst : Option Text → Option Desc) (ds : List Dep) : Prop :=
  ∀ d, d ∈ ds → ∃ p, inst (packageNameKey d.name) = some p ∧ packageNameKey p.name = packageNameKey d.name

/-- Requirements of other packages. -/
def others (l new : List Dep) : List Dep :=
  l.filter (fun d => decide (packageNameKey d.name ∉ new.map (fun n => packageNameKey n.name)))

/-- Two configurations have the same dependencies: the same list, and the same list for every extra (no group and an empty
group are the same). -/
def SameDependencies (a b : Config) : Prop :=
  a.deps = b.deps ∧ ∀ g, (a.optional.get g).getD [] = (b.optional.get g).getD []

end Spec

namespace Projects
open Reqs Spec

/-! ### the range for an installed version -/

theorem relBefore_one (r : List Nat) (n : Nat) : RelBefore r [n + 1] ↔ relAt r 0 ≤ n := by
  constructor
  · rintro ⟨i, h1, h2⟩
    cases i with
    | zero => simp [relAt] at h2 ⊢; omega
    | succ i => simp [relAt] at h2
  · intro h
    exact ⟨0, by simp, by simp [relAt] at h ⊢; omega⟩

theorem not_lt_final (w m : SV) (hw : Final w) (he : w.epoch.getD 0 = m.epoch.getD 0) (hr : RelSame w.release m.release)
    (hp : m.post = none) (hl : m.loc = none) : w.lt m = false := by
  obtain ⟨⟨⟨_, _, hwl⟩, hwp⟩, hpre, hdev⟩ := hw
  obtain ⟨h1, h2, h3, h4⟩ := std_lt_by_suffix w m he hr
  cases hd : m.dev with
  | some n =>
    have := h1 (by rw [hdev, hd]; simp)
    rw [hdev, hd] at this
    simpa [DevBefore] using this
  | none =>
    cases hpm : m.pre with
    | none =>
      have hs : SamePublic w m := ⟨he, hr, by rw [hpre, hpm], by rw [hwp, hp], by rw [hdev, hd]⟩
      have : w.eqv m = true := (std_eq_iff w m).2 ⟨hs, by rw [hwl, hl]⟩
      have e := std_eq_lt_congr w m m this
      cases hh : w.lt m with
      | false => rfl
      | true =>
        have := version_lt_irrefl (.std m)
        rw [Ver.lt] at this
        rw [e.1] at hh
        rw [hh] at this; exact this
    | some q =>
      obtain ⟨_, _, _, h5⟩ := std_lt_by_suffix m w he.symm (fun i => (hr i).symm)
      have : m.lt w = true := h5 (by rw [hd, hdev]) (by simp [hpm]) hpre
      exact version_lt_asymm (.std m) (.std w) this

/-- C64: the range that is written for an installed version allows that version. -/
theorem generalized_allows (v : Ver) : (generalized v).allows v = true := by
  have h : v.eqv v = true := version_eq_equivalence.1 v
  cases v with
  | std s => simp [generalized, VSpec.allows, VSpec.rangeAllows, VSpec.endEq, h]
  | url u p s => simpa [generalized, VSpec.allows, VSpec.matchAllows, Ver.isLocal, Ver.withoutLocal] using h
  | named n => simpa [generalized, VSpec.allows, VSpec.matchAllows, Ver.isLocal, Ver.withoutLocal] using h

theorem lt_next_major (v w : SV) (hp : v.post = none) (hl : v.loc = none) (hw : Final w) :
    w.lt { v with release := [relAt v.release 0 + 1] } = true ↔
      w.epoch.getD 0 < v.epoch.getD 0 ∨ (w.epoch.getD 0 = v.epoch.getD 0 ∧ relAt w.release 0 ≤ relAt v.release 0) := by
  by_cases he : w.epoch.getD 0 = v.epoch.getD 0
  · by_cases hr : RelSame w.release [relAt v.release 0 + 1]
    · have h0 : relAt w.release 0 = relAt v.release 0 + 1 := hr 0
      rw [not_lt_final w { v with release := [relAt v.release 0 + 1] } hw he hr hp hl]
      simp [he, h0]
    · rw [std_lt_by_release w { v with release := [relAt v.release 0 + 1] } he hr, relBefore_one]
      simp [he]
  · rw [std_lt_by_epoch w { v with release := [relAt v.release 0 + 1] } he]
    simp [he]

theorem headD_relAt (r : List Nat) : r.headD 0 = relAt r 0 := by cases r <;> simp [relAt]

/-- C64: the range for an installed version allows exactly the final releases from it on with the same major number (and epoch).
What is missing: installed post releases and versions with a local label (`generalized_post_violated`,
`generalized_local_violated`), and pre-releases of the next major number, which are allowed (`generalized_pre_violated`). -/
theorem generalized_major_partial (v w : SV) (hp : v.post = none) (hl : v.loc = none) (hw : Final w) :
    (generalized (.std v)).allows (.std w) = true ↔
      (v.lt w = true ∨ v.eqv w = true) ∧ w.epoch.getD 0 = v.epoch.getD 0 ∧ relAt w.release 0 ≤ relAt v.release 0 := by
  have hpost : (Ver.std w).isPost = false := by simp [Ver.isPost, SV.isPost, hw.1.2]
  have hlt := lt_next_major v w hp hl hw
  have hmin : v.lt w = true → v.epoch.getD 0 ≤ w.epoch.getD 0 := by
    intro h
    by_cases he : v.epoch.getD 0 = w.epoch.getD 0
    · omega
    · have := (std_lt_by_epoch v w he).1 h
      omega
  have heq : v.eqv w = true → w.epoch.getD 0 = v.epoch.getD 0 ∧ relAt w.release 0 ≤ relAt v.release 0 := by
    intro h
    have := ((std_eq_iff v w).1 h).1
    exact ⟨this.1.symm, Nat.le_of_eq (this.2.1 0).symm⟩
  have hw' : (generalized (.std v)).allows (.std w) =
      (v.eqv w || (v.lt w && w.lt { v with release := [relAt v.release 0 + 1] })) := by
    simp only [generalized, VSpec.allows, VSpec.rangeAllows, VSpec.endEq, Ver.eqv, Ver.lt, hpost, headD_relAt]
    cases v.eqv w <;> simp
  rw [hw', Bool.or_eq_true, Bool.and_eq_true, hlt]
  constructor
  · rintro (h | ⟨h, h'⟩)
    · exact ⟨Or.inr h, heq h⟩
    · have := hmin h
      refine ⟨Or.inl h, ?_⟩
      rcases h' with h' | h'
      · omega
      · exact h'
  · rintro ⟨h | h, h1, h2⟩
    · exact Or.inr ⟨h, Or.inr ⟨h1, h2⟩⟩
    · exact Or.inl h

/-- For 1.4 the range allows 1.9 and neither 2.0 nor 1.3. -/
example : Final { release := [1, 9] } ∧ (generalized (.std { release := [1, 4] })).allows (.std { release := [1, 9] }) = true ∧
    (generalized (.std { release := [1, 4] })).allows (.std { release := [2, 0] }) = false ∧
    (generalized (.std { release := [1, 4] })).allows (.std { release := [1, 3] }) = false :=
  ⟨⟨⟨⟨by simp, by simp, rfl⟩, rfl⟩, rfl, rfl⟩, by decide, by decide, by decide⟩

/-- C64 fails for post releases: for 1.0.post1 the next major release 2.0 is allowed. -/
theorem generalized_post_violated :
    (generalized (.std { release := [1, 0], post := some 1 })).allows (.std { release := [2, 0] }) = true := by decide

/-- C64 fails for local labels: for 1.0+cpu the next major release 2.0 is allowed. -/
theorem generalized_local_violated :
    (generalized (.std { release := [1, 0], loc := some ['c', 'p', 'u'] })).allows (.std { release := [2, 0] }) = true := by
  decide

/-- C64 fails for pre-releases of the next major number: for 1.0 the version 2.0a1 is allowed. -/
theorem generalized_pre_violated :
    (generalized (.std { release := [1, 0] })).allows (.std { release := [2, 0], pre := some (['a'], 1) }) = true := by decide

/-! ### adding -/

theorem replaceFirst_mid (k : Option Text) (d x : Dep) (a b : List Dep) (ha : ∀ y, y ∈ a → key y ≠ k) (hx : key x = k) :
    replaceFirst k d (a ++ x :: b) = some (a ++ d :: b) := by
  induction a with
  | nil => simp [replaceFirst, hx]
  | cons y ys ih =>
    have h1 := ih (fun z hz => ha z (List.mem_cons_of_mem _ hz))
    have h2 := ha y (by simp)
    simp [replaceFirst, h2, h1]

theorem written_key (inst : Option Text → Option Desc) (d : Dep)
    (h : ∃ p, inst (packageNameKey d.name) = some p ∧ packageNameKey p.name = packageNameKey d.name) :
    key (written inst d) = key d := by
  obtain ⟨p, h1, h2⟩ := h
  unfold written
  split
  · rw [h1]; exact h2
  · rfl

theorem pinAll_combined (inst : Option Text → Option Desc) (new pre : List Dep) (hd : DistinctNames new)
    (hi : AllInstalled inst new) (hpre : ∀ x, x ∈ pre → ∀ d, d ∈ new → key x ≠ key d) :
    pinAll inst new (pre ++ new) = some (pre ++ new.map (written inst)) := by
  induction new generalizing pre with
  | nil => simp [pinAll]
  | cons d ds ih =>
    have hd' : DistinctNames ds := by
      simp only [DistinctNames, List.map_cons, List.nodup_cons] at hd
      exact hd.2
    have hne : ∀ e, e ∈ ds → key d ≠ key e := by
      intro e he heq
      simp only [DistinctNames, List.map_cons, List.nodup_cons] at hd
      exact hd.1 (List.mem_map.2 ⟨e, he, heq.symm⟩)
    have hi' : AllInstalled inst ds := fun e he => hi e (List.mem_cons_of_mem _ he)
    have hdi := hi d (by simp)
    have hk := written_key inst d hdi
    have step : ∀ x, key x = key d → pinAll inst ds ((pre ++ [x]) ++ ds) = some ((pre ++ [x]) ++ ds.map (written inst)) := by
      intro x hx
      apply ih (pre ++ [x]) hd' hi'
      intro y hy e he
      rcases List.mem_append.1 hy with hy | hy
      · exact hpre y hy e (List.mem_cons_of_mem _ he)
      · simp at hy; subst hy; rw [hx]; exact hne e he
    simp only [pinAll]
    cases hs : unconstrained d.spec with
    | true =>
      have hs' : d.spec = .all := by
        cases h : d.spec <;> simp_all [unconstrained]
      obtain ⟨p, hp, hpk⟩ := hdi
      have hw : written inst d = toDependency p := by
        simp [written, hs', hp, toDependency]
      have hp' : inst (key d) = some p := hp
      simp only [if_true, hp']
      rw [replaceFirst_mid (key d) (toDependency p) d pre ds (fun y hy => hpre y hy d (by simp)) rfl]
      have := step (toDependency p) hpk
      simp only [List.append_assoc, List.singleton_append] at this
      simp only [this, List.map_cons, hw]
    | false =>
      have hw : written inst d = d := by
        unfold written
        split
        · rename_i h; rw [h] at hs; simp [unconstrained] at hs
        · rfl
      have := step d rfl
      simp only [List.append_assoc, List.singleton_append] at this
      simp [this, hw]

theorem combined_others (old new : List Dep) : combined old new = others old new ++ new := by
  simp only [combined, others]
  congr 1
  apply List.filter_congr
  intro d _
  have : key = fun n => packageNameKey n.name := rfl
  rw [← this]
  have hk : packageNameKey d.name = key d := rfl
  rw [hk]
  by_cases h : key d ∈ new.map key
  · rw [List.contains_eq_mem, decide_eq_true h, decide_eq_false (not_not.2 h)]; rfl
  · rw [List.contains_eq_mem, decide_eq_false h, decide_eq_true h]; rfl

theorem withList_list (c : Config) (group : Option Text) (l : List Dep) : (c.withList group l).list group = l := by
  cases group with
  | none => rfl
  | some g => simp [Config.withList, Config.list, Dict.get_put]

theorem withList_other (c : Config) (group g : Option Text) (l : List Dep) (h : g ≠ group) :
    (c.withList group l).list g = c.list g := by
  cases group with
  | none =>
    cases g with
    | none => exact absurd rfl h
    | some g => rfl
  | some k =>
    cases g with
    | none => rfl
    | some g =>
      have : k ≠ g := fun e => h (by rw [e])
      simp [Config.withList, Config.list, Dict.get_put, this]

theorem withList_twice (c : Config) (group : Option Text) (l : List Dep) :
    SameDependencies (c.withList group (c.list group)) c := by
  cases group with
  | none => exact ⟨rfl, fun _ => rfl⟩
  | some g =>
    refine ⟨rfl, fun k => ?_⟩
    simp only [Config.withList, Config.list, Dict.get_put]
    split
    · rename_i h; subst h; simp
    · rfl

/-- C64: adding requirements of different packages that get installed. Memory and file have the same configuration; the changed
list has the requirements of other packages as they were, in order, followed by the new ones in the order given, those without
constraint with the range of the installed version; every other list is unchanged. -/
theorem project_add (w : World) (p : Prj) (new : List Dep) (group : Option Text) (inst : Option Text → Option Desc)
    (h : w.install (p.mem.withList group (combined (p.mem.list group) new)) = some inst) (hs : w.save = true)
    (hl : w.lock = true) (hd : DistinctNames new) (hi : AllInstalled inst new) :
    ∃ q, installDependencies w p new group = (true, q) ∧ q.file = q.mem ∧
      q.mem.list group = others (p.mem.list group) new ++ new.map (written inst) ∧
      ∀ g, g ≠ group → q.mem.list g = p.mem.list g := by
  have hpin := pinAll_combined inst new (others (p.mem.list group) new) hd hi (by
    intro x hx d hdm e
    simp only [others, List.mem_filter, decide_eq_true_eq] at hx
    exact hx.2 (List.mem_map.2 ⟨d, hdm, e.symm⟩))
  rw [← combined_others] at hpin
  refine ⟨⟨p.mem.withList group (others (p.mem.list group) new ++ new.map (written inst)),
    p.mem.withList group (others (p.mem.list group) new ++ new.map (written inst))⟩, ?_, rfl,
    withList_list _ _ _, fun g hg => withList_other _ _ _ _ hg⟩
  simp only [installDependencies, h, hpin, hs, hl, if_true]

/-- C64: if adding fails, for whatever reason, the project in memory has the dependencies it had. -/
theorem project_add_rollback (w : World) (p q : Prj) (new : List Dep) (group : Option Text)
    (h : installDependencies w p new group = (false, q)) : SameDependencies q.mem p.mem := by
  simp only [installDependencies] at h
  have hsame := withList_twice p.mem group []
  split at h
  · simp at h; subst h; exact hsame
  · split at h
    · simp at h; subst h; exact hsame
    · split at h
      · split at h
        · simp at h
        · simp at h; subst h; exact hsame
      · simp at h; subst h; exact hsame

/-- C64: a failing installation or a failing check of what was installed leaves the file as it was. -/
theorem project_add_file (w : World) (p q : Prj) (new : List Dep) (group : Option Text)
    (h : installDependencies w p new group = (false, q)) (hl : w.lock = true) : q.file = p.file := by
  simp only [installDependencies] at h
  split at h
  · simp at h; subst h; rfl
  · split at h
    · simp at h; subst h; rfl
    · split at h
      · simp [hl] at h
      · simp at h; subst h; rfl

private def exA : Dep := { name := ['a'] }
private def exB : Dep := { name := ['b'] }
private def exInst : Option Text → Option Desc := fun k => k.map (fun n => ⟨n, .std { release := [1, 2] }⟩)

/-- Adding `B` to a project that requires `a` and `b`, both installed as 1.2: the hypotheses are met, and the list is
`a`, `b >=1.2,<2`. -/
example : DistinctNames [{ name := ['B'] }] ∧ AllInstalled exInst [{ name := ['B'] }] ∧
    (installDependencies ⟨fun _ => some exInst, true, true⟩ ⟨⟨[exA, exB], []⟩, ⟨[exA, exB], []⟩⟩ [{ name := ['B'] }] none).2.file.deps =
      [exA, { name := ['b'], spec := generalized (.std { release := [1, 2] }) }] := by
  refine ⟨by simp [DistinctNames], ?_, by rfl⟩
  intro d hd
  simp at hd; subst hd
  exact ⟨⟨['b'], .std { release := [1, 2] }⟩, by decide, by decide⟩

/-- C64 fails for extras and markers: a requirement without constraint is written without its extras and its marker. -/
theorem project_add_extras_violated (w : World) (p : Prj) (d : Dep) (x : Desc) (inst : Option Text → Option Desc)
    (hsp : d.spec = .all) (h : w.install (p.mem.withList none (combined p.mem.deps [d])) = some inst)
    (hs : w.save = true) (hl : w.lock = true)
    (hx : inst (packageNameKey d.name) = some x) (hk : packageNameKey x.name = packageNameKey d.name) :
    ∃ q, installDependencies w p [d] none = (true, q) ∧
      ∃ y, q.mem.deps = others p.mem.deps [d] ++ [y] ∧ y.extras = none ∧ y.marker = none := by
  obtain ⟨q, h1, _, h2, _⟩ := project_add w p [d] none inst h hs hl (by simp [DistinctNames])
    (by intro e he; simp at he; subst he; exact ⟨x, hx, hk⟩)
  refine ⟨q, h1, written inst d, h2, ?_⟩
  simp [written, hsp, hx]

/-- The requirement `a[fast]` meets the hypotheses. -/
example : (installDependencies ⟨fun _ => some exInst, true, true⟩ ⟨⟨[], []⟩, ⟨[], []⟩⟩
    [{ name := ['a'], extras := some [['f']] }] none).2.file.deps =
      [{ name := ['a'], spec := generalized (.std { release := [1, 2] }) }] := by rfl

/-- C64 fails if the lock cannot be written: the file has the new dependencies, memory the old ones. -/
theorem project_add_lock_violated :
    ∃ w p new q, installDependencies w p new none = (false, q) ∧ p.file.deps = [] ∧ q.mem.deps = [] ∧ q.file.deps ≠ [] :=
  ⟨⟨fun _ => some exInst, true, false⟩, ⟨⟨[], []⟩, ⟨[], []⟩⟩, [exA], _, rfl, rfl, rfl, by simp [exA, exInst, pinAll,
    installDependencies, Config.withList, combined, Config.list, key, unconstrained, replaceFirst]⟩

/-- C64 fails for a new group: after a failure the empty group remains. -/
theorem project_add_group_violated :
    ∃ w p new g q, installDependencies w p new (some g) = (false, q) ∧ p.mem.optional.get g = none ∧
      (q.mem.optional.get g).isSome = true :=
  ⟨⟨fun _ => none, true, true⟩, ⟨⟨[], []⟩, ⟨[], []⟩⟩, [exA], ['t'], _, rfl, rfl, by rfl⟩

/-! ### removing -/

/-- C64: removing packages. On success memory and file have the same configuration: every list, of the project and of every
group, without the requirements of these packages, the others in order. -/
theorem project_remove (w : World) (p q : Prj) (packages : List Text)
    (h : uninstallDependencies w p packages = (true, q)) :
    q.file = q.mem ∧
    q.mem.deps = p.mem.deps.filter (fun d => decide (packageNameKey d.name ∉ packages.map packageNameKey)) ∧
    q.mem.optional = p.mem.optional.map (fun g => (g.1, g.2.filter (fun d => decide (packageNameKey d.name ∉
      packages.map packageNameKey)))) := by
  have e : ∀ l, without (packages.map packageNameKey) l =
      l.filter (fun d => decide (packageNameKey d.name ∉ packages.map packageNameKey)) := by
    intro l
    unfold without
    apply List.filter_congr
    intro d _
    by_cases hh : key d ∈ packages.map packageNameKey
    · have : packageNameKey d.name ∈ packages.map packageNameKey := hh
      rw [List.contains_eq_mem, decide_eq_true hh, decide_eq_false (not_not.2 this)]; rfl
    · have : packageNameKey d.name ∉ packages.map packageNameKey := hh
      rw [List.contains_eq_mem, decide_eq_false hh, decide_eq_true this]; rfl
  simp only [uninstallDependencies] at h
  split at h
  · simp at h
  · split at h
    · simp at h
      obtain ⟨_, rfl⟩ := h
      refine ⟨rfl, ?_, ?_⟩
      · simp only [Config.without]; exact e _
      · simp only [Config.without, e]
    · simp at h

/-- Removing `A` from the project that requires `a` and, for an extra, `a` and `b`. -/
example : (uninstallDependencies ⟨fun _ => some exInst, true, true⟩ ⟨⟨[exA], [(['t'], [exA, exB])]⟩, ⟨[], []⟩⟩ [['A']]) =
    (true, ⟨⟨[], [(['t'], [exB])]⟩, ⟨[], [(['t'], [exB])]⟩⟩) := by rfl

/-- C64 fails for removal: if the removal fails, memory has lost the requirements and the file still has them. -/
theorem project_remove_rollback_violated :
    ∃ w p packages q, uninstallDependencies w p packages = (false, q) ∧ p.mem = p.file ∧ q.mem.deps = [] ∧ q.file.deps ≠ [] :=
  ⟨⟨fun _ => none, true, true⟩, ⟨⟨[exA], []⟩, ⟨[exA], []⟩⟩, [['a']], _, rfl, rfl, rfl, by simp⟩

end Projects
end Pkm
