import Verif.Resolver.Model
import Verif.Solver.ExactProps
import Verif.Solver.Specifiers
set_option linter.unusedVariables false
set_option linter.unusedSimpArgs false
/-
C18: what the dependency resolver returns for extras, overrides and environment markers.
-/
namespace Pkm
open Solver Resolver

variable {V S : Type}

namespace Spec

/-- The dependency that counts in place of `d`: the override of its name, if there is one. -/
def Counts (s : Setting V S) (d e : RDep S) : Prop :=
  s.overrides.get d.name = some e ∨ (s.overrides.get d.name = none ∧ e = d)

/-- The package entry `q` is wanted by the entry `p` at `v` with constraint `c`: `p` has extras and `q` is the same
package without them, at just this version; or `q` is what counts for a dependency of the package of `p` that
applies to the extras of `p`. -/
inductive Wants (alg : Alg V S) (s : Setting V S) (p : RPkg) (v : V) : RPkg → S → Prop where
  | base (h : p.hasExtras = true) : Wants alg s p v ⟨p.name, none⟩ (alg.single v)
  | dependency (o : Obj V S) (ds : List (RDep S)) (d e : RDep S) (ho : objectOf s p.name v = some o)
      (hds : o.dependencies (p.extras.getD []) = some ds) (hd : d ∈ ds) (ha : d.applies (p.extras.getD []) = true)
      (he : Counts s d e) : Wants alg s p v ⟨lower e.name, e.extras⟩ e.spec

/-- There is a reason for the entry: it is the root, or a selected entry wants it. -/
inductive Justified (alg : Alg V S) (s : Setting V S) (sel : Dict RPkg V) : RPkg → Prop where
  | root : Justified alg s sel ⟨lower s.root.name, s.root.extras⟩
  | wanted (p : RPkg) (v : V) (q : RPkg) (c : S) (hp : Justified alg s sel p) (hv : (p, v) ∈ sel)
      (hw : Wants alg s p v q c) : Justified alg s sel q

end Spec
open Spec

theorem termOf_counts {s : Setting V S} {d : RDep S} {q : RPkg} {c : S} :
    termOf s d = (q, c) ↔ ∃ e, Counts s d e ∧ q = ⟨lower e.name, e.extras⟩ ∧ c = e.spec := by
  unfold termOf Counts pkgOf
  cases h : s.overrides.get d.name with
  | none => simp [eq_comm, and_comm]
  | some o =>
    simp only [Option.some.injEq, Prod.mk.injEq, reduceCtorEq, false_and, or_false]
    constructor
    · rintro ⟨rfl, rfl⟩; exact ⟨o, rfl, rfl, rfl⟩
    · rintro ⟨e, rfl, rfl, rfl⟩; exact ⟨rfl, rfl⟩

/-- The dependencies that the solver sees are what an entry wants. -/
theorem getDependencies_wants {alg : Alg V S} {s : Setting V S} {p : RPkg} {v : V} {ts : List (RPkg × S)}
    (h : getDependencies alg s p v = some ts) (q : RPkg) (c : S) : (q, c) ∈ ts ↔ Wants alg s p v q c := by
  unfold getDependencies at h
  cases ho : objectOf s p.name v with
  | none => rw [ho] at h; simp at h
  | some o =>
    rw [ho] at h
    dsimp only at h
    cases hds : o.dependencies (p.extras.getD []) with
    | none => rw [hds] at h; simp at h
    | some ds =>
      rw [hds] at h
      simp only [Option.some.injEq] at h
      subst h
      unfold termsOf
      rw [List.mem_append]
      constructor
      · rintro (h | h)
        · split at h
          · rename_i hx
            simp only [List.mem_singleton, Prod.mk.injEq] at h
            obtain ⟨rfl, rfl⟩ := h
            exact .base hx
          · simp at h
        · obtain ⟨d, hd, ht⟩ := List.mem_map.1 h
          obtain ⟨hd, ha⟩ := List.mem_filter.1 hd
          obtain ⟨e, he, rfl, rfl⟩ := termOf_counts.1 ht
          exact .dependency o ds d e ho hds hd ha he
      · intro h
        cases h with
        | base hx => left; rw [if_pos hx]; exact List.mem_singleton.2 rfl
        | dependency o' ds' d e ho' hds' hd ha he =>
          rw [ho] at ho'
          simp only [Option.some.injEq] at ho'
          subst ho'
          rw [hds] at hds'
          simp only [Option.some.injEq] at hds'
          subst hds'
          right
          exact List.mem_map.2 ⟨d, List.mem_filter.2 ⟨hd, ha⟩, termOf_counts.2 ⟨e, he, rfl, rfl⟩⟩

theorem collect_ok {s : Setting V S} {es : List (RPkg × V)} {out : List (Obj V S)} (h : collect s es = .ok out) :
    out.map some = (es.filter (fun e => !e.1.hasExtras)).map (fun e => objectOf s e.1.name e.2) := by
  induction es generalizing out with
  | nil => simp only [collect, Except.ok.injEq] at h; subst h; rfl
  | cons e es ih =>
    obtain ⟨p, v⟩ := e
    unfold collect at h
    split at h
    · rename_i hx
      rw [ih h, List.filter_cons_of_neg (by simp [hx])]
    · rename_i hx
      split at h
      · simp at h
      · rename_i o ho
        split at h
        · simp at h
        · rename_i os hos
          simp only [Except.ok.injEq] at h
          subst h
          rw [List.filter_cons_of_pos (by simpa using hx), List.map_cons, List.map_cons, ih hos]
          simp only [ho]

theorem collect_total {s : Setting V S} {es : List (RPkg × V)} (h : ∀ p v, (p, v) ∈ es → ∃ o, objectOf s p.name v = some o) :
    ∃ out, collect s es = .ok out := by
  induction es with
  | nil => exact ⟨[], rfl⟩
  | cons e es ih =>
    obtain ⟨p, v⟩ := e
    obtain ⟨os, hos⟩ := ih (fun p v hp => h p v (List.mem_cons_of_mem _ hp))
    obtain ⟨o, ho⟩ := h p v List.mem_cons_self
    unfold collect
    split
    · exact ⟨os, hos⟩
    · rw [ho]; simp only [hos]; exact ⟨_, rfl⟩

theorem reached_justified {alg : Alg V S} {s : Setting V S} {sel : Dict RPkg V} {p : RPkg}
    (h : Reached (problem alg s) sel p) : Justified alg s sel p := by
  induction h with
  | root => exact .root
  | dependency hp hv hd ih =>
    obtain ⟨ts, hts, hq⟩ := hd
    obtain ⟨⟨q, c⟩, hm, rfl⟩ := List.mem_map.1 hq
    exact .wanted _ _ _ c ih hv ((getDependencies_wants hts q c).1 hm)

/-- C18: the resolver returns the packages of a selection of entries (names with extras), namely those of its
entries without extras, in their order. The selection has the root; each entry at most once; of every entry that
a selected entry wants some version; and nothing without a reason. So dependencies that do not apply and
dependencies that are overridden select nothing, and a package with extras brings the package itself. -/
theorem resolver_output {alg : Alg V S} {s : Setting V S} {ch : Choices RPkg S} {fuel : Nat} {out : List (Obj V S)}
    (h : resolve alg s ch fuel = .ok out) :
    ∃ sel : Dict RPkg V, sel.Wf ∧
      out.map some = (sel.filter (fun e => !e.1.hasExtras)).map (fun e => objectOf s e.1.name e.2) ∧
      (∃ v, (⟨lower s.root.name, s.root.extras⟩, v) ∈ sel) ∧
      (∀ p v, (p, v) ∈ sel → ∀ q c, Wants alg s p v q c → ∃ w, (q, w) ∈ sel) ∧
      (∀ p v, (p, v) ∈ sel → Justified alg s sel p) := by
  unfold resolve at h
  split at h
  · simp at h
  · rename_i sol hs
    obtain ⟨hroot, hc⟩ := resolution_closed_partial hs
    refine ⟨sol, ?_, collect_ok h, hroot, ?_, fun p v hp => reached_justified (resolution_needed hs p v hp)⟩
    · obtain ⟨s0, st, -, -, hi, -, rfl⟩ := solve_search hs
      unfold Dict.Wf Dict.keys St.solution
      rw [List.map_map]
      exact hi.wfD
    · intro p v hp q c hw
      obtain ⟨-, ts, hts, hq⟩ := hc p v hp
      exact hq q c ((getDependencies_wants hts q c).2 hw)

/-- C18: the final lookup of the packages never fails. -/
theorem resolver_no_key_error (alg : Alg V S) (s : Setting V S) (ch : Choices RPkg S) (fuel : Nat) :
    resolve alg s ch fuel ≠ .error .key := by
  intro h
  unfold resolve at h
  split at h
  · simp at h
  · rename_i sol hs
    obtain ⟨-, hc⟩ := resolution_closed_partial hs
    obtain ⟨out, ho⟩ := collect_total (s := s) (es := sol) (by
      intro p v hp
      obtain ⟨-, ts, hts, -⟩ := hc p v hp
      change getDependencies alg s p v = some ts at hts
      unfold getDependencies at hts
      cases ho : objectOf s p.name v with
      | none => rw [ho] at hts; simp at hts
      | some o => exact ⟨o, rfl⟩)
    rw [ho] at h
    simp at h

/-- C18 for exact specifier operations and versions whose neighbours share no dependency: the selected versions
meet the constraints as well, so the package of an entry with extras is selected at the version of the entry.
Missing: see `resolver_extras_violated`. -/
theorem resolver_constraints_partial {alg : Alg V S} {s : Setting V S} {ch : Choices RPkg S} (hx : Exact alg)
    (hu : Unshared alg (problem alg s)) {fuel : Nat} {out : List (Obj V S)} (h : resolve alg s ch fuel = .ok out) :
    ∃ sel : Dict RPkg V, sel.Wf ∧
      out.map some = (sel.filter (fun e => !e.1.hasExtras)).map (fun e => objectOf s e.1.name e.2) ∧
      (∀ p v, (p, v) ∈ sel → ∀ q c, Wants alg s p v q c → ∃ w, (q, w) ∈ sel ∧ alg.allows c w = true) ∧
      (∀ p v, (p, v) ∈ sel → p.hasExtras = true → (⟨p.name, none⟩, v) ∈ sel) := by
  unfold resolve at h
  split at h
  · simp at h
  · rename_i sol hs
    have hsol := resolution_solves_partial hx hu hs
    obtain ⟨hwf, -, -, hd⟩ := hsol
    have key : ∀ p v, (p, v) ∈ sol → ∀ q c, Wants alg s p v q c → ∃ w, (q, w) ∈ sol ∧ alg.allows c w = true := by
      intro p v hp q c hw
      obtain ⟨ts, hts, hq⟩ := hd p v hp
      exact hq q c ((getDependencies_wants hts q c).2 hw)
    refine ⟨sol, hwf, collect_ok h, key, ?_⟩
    intro p v hp hxp
    obtain ⟨w, hw, ha⟩ := key p v hp _ _ (.base hxp)
    rw [(hx.single v w).1 ha] at hw
    exact hw

/-- No package list of a dependency, override or the root is the empty list (the parser never gives one). -/
def Spec.NoEmptyExtras (s : Setting V S) : Prop :=
  s.root.extras ≠ some [] ∧ (∀ n o, s.overrides.get n = some o → o.extras ≠ some []) ∧
    ∀ p v o x ds d, objectOf s p v = some o → o.dependencies x = some ds → d ∈ ds → d.extras ≠ some []

/-- C18: entries without extras have different names, so each package is returned once. -/
theorem resolver_names_once {alg : Alg V S} {s : Setting V S} {ch : Choices RPkg S} (hs : NoEmptyExtras s) {fuel : Nat}
    {out : List (Obj V S)} (h : resolve alg s ch fuel = .ok out) :
    ∃ sel : List (Text × V), (sel.map (·.1)).Nodup ∧ out.map some = sel.map (fun e => objectOf s e.1 e.2) := by
  obtain ⟨sel, hwf, hout, -, -, hj⟩ := resolver_output h
  have hne : ∀ p, Justified alg s sel p → p.extras ≠ some [] := by
    intro p hp
    cases hp with
    | root => exact hs.1
    | wanted p' v' q c hp' hv hw =>
      cases hw with
      | base _ => simp
      | dependency o ds d e ho hds hd ha he =>
        rcases he with he | ⟨-, rfl⟩
        · exact hs.2.1 _ _ he
        · exact hs.2.2 _ _ _ _ _ _ ho hds hd
  refine ⟨(sel.filter (fun e => !e.1.hasExtras)).map (fun e => (e.1.name, e.2)), ?_, ?_⟩
  · rw [List.map_map]
    have hnd : ((sel.filter (fun e => !e.1.hasExtras)).map (·.1)).Nodup :=
      List.Sublist.nodup (List.Sublist.map _ List.filter_sublist) hwf
    rw [List.nodup_iff_pairwise_ne] at hnd ⊢
    rw [List.pairwise_map] at hnd ⊢
    refine hnd.imp_of_mem ?_
    intro a b ha hb hab he
    apply hab
    have hnone : ∀ e, e ∈ sel.filter (fun e => !e.1.hasExtras) → e.1.extras = none := by
      intro e he
      obtain ⟨h1, h2⟩ := List.mem_filter.1 he
      have h3 := hne e.1 (hj e.1 e.2 h1)
      cases hx : e.1.extras with
      | none => rfl
      | some l =>
        cases l with
        | nil => exact absurd hx h3
        | cons a l => simp [RPkg.hasExtras, hx] at h2
    have h1 := hnone a ha
    have h2 := hnone b hb
    have he' : a.1.name = b.1.name := he
    cases a with
    | mk a va =>
      cases b with
      | mk b vb =>
        cases a; cases b
        simp only at h1 h2 he' ⊢
        subst h1 h2 he'
        rfl
  · rw [hout, List.map_map]
    rfl

theorem mem_putVersion {eqv : V → V → Bool} {o x : Obj V S} {l : List (Obj V S)} (h : x ∈ putVersion eqv o l) : x = o ∨ x ∈ l := by
  induction l with
  | nil => simpa [putVersion] using h
  | cons y ys ih =>
    unfold putVersion at h
    split at h
    · rcases List.mem_cons.1 h with h | h
      · exact .inl h
      · exact .inr (List.mem_cons_of_mem _ h)
    · rcases List.mem_cons.1 h with h | h
      · exact .inr (h ▸ List.mem_cons_self)
      · rcases ih h with h | h
        · exact .inl h
        · exact .inr (List.mem_cons_of_mem _ h)

theorem mem_compatibles {s : Setting V S} {name : Text} {x : Obj V S} (h : x ∈ compatibles s name) :
    x ∈ s.list name ∧ x.compatible = true := by
  have key : ∀ (l acc : List (Obj V S)), x ∈ l.foldl (fun acc o => putVersion s.eqv o acc) acc → x ∈ l ∨ x ∈ acc := by
    intro l
    induction l with
    | nil => intro acc h; exact .inr h
    | cons y ys ih =>
      intro acc h
      rcases ih _ h with h | h
      · exact .inl (List.mem_cons_of_mem _ h)
      · rcases mem_putVersion h with rfl | h
        · exact .inl List.mem_cons_self
        · exact .inr h
  rcases key _ _ h with h | h
  · exact List.mem_filter.1 h
  · simp at h

/-- C18: each returned package is offered by the repository, compatible with the environment unless it is given by
its URL, and has a name and a version that are selected. -/
theorem resolver_packages {alg : Alg V S} {s : Setting V S} {ch : Choices RPkg S} {fuel : Nat} {out : List (Obj V S)}
    (h : resolve alg s ch fuel = .ok out) (o : Obj V S) (ho : o ∈ out) :
    ∃ name v, (s.isUrl v = true ∧ s.matchUrl name v = some o) ∨
      (o ∈ s.list name ∧ o.compatible = true ∧ s.eqv o.version v = true ∧
        descriptorName (lower o.name) = descriptorName name) := by
  obtain ⟨sel, -, hout, -, -, -⟩ := resolver_output h
  have : some o ∈ out.map some := List.mem_map.2 ⟨o, ho, rfl⟩
  rw [hout] at this
  obtain ⟨⟨p, v⟩, -, he⟩ := List.mem_map.1 this
  refine ⟨p.name, v, ?_⟩
  simp only [objectOf] at he
  split at he
  · rename_i hu; exact .inl ⟨hu, he⟩
  · right
    unfold opened at he
    have h1 := List.find?_some he
    have h2 := List.mem_of_find?_eq_some he
    rw [List.mem_reverse] at h2
    obtain ⟨h3, h4⟩ := mem_compatibles h2
    simp only [Bool.and_eq_true, decide_eq_true_eq] at h1
    exact ⟨h3, h4, h1.1, h1.2⟩

/-! ### Examples -/

namespace ResolverExample

def ver (n : Nat) : Ver := .std { release := [n] }
def ge (n : Nat) : VSpec := .range (some { release := [n] }) none true false
def lt (n : Nat) : VSpec := .range none (some { release := [n] }) false false

/-- Packages: name, version, dependencies; listed with the latest first. -/
def setting (pkgs : List (Text × Nat × List (RDep VSpec))) (overrides : Dict Text (RDep VSpec)) : Setting Ver VSpec where
  list n := (pkgs.filter (fun p => p.1 = n)).reverse.map (fun p =>
    { name := p.1, version := ver p.2.1, dependencies := fun x => some (p.2.2.filter (fun d => d.applies x)) })
  matchUrl _ _ := none
  matchVersion _ _ _ := false
  root := { name := ['r'], spec := .all }
  overrides := overrides
  isStandard := Ver.isStd
  isUrl _ := false
  eqv a b := a = b

def choices : Choices RPkg VSpec := ⟨fun _ _ => 0, fun _ l => l⟩

/-- The returned packages: names and versions. -/
def outcome (s : Setting Ver VSpec) (fuel : Nat) : Sum RErr (List (Text × Ver)) :=
  match resolve specifiers s choices fuel with
  | .ok os => .inr (os.map (fun o => (o.name, o.version)))
  | .error e => .inl e

/-- The dependency for the extra `e` only. -/
def extraOnly (d : RDep VSpec) : RDep VSpec := { d with applies := fun x => x.contains ['e'] }

/-- r needs a[e] and b; a 2 needs c>=2 for the extra e and d for another platform; b needs c<2, which is
overridden. -/
def good : Setting Ver VSpec :=
  setting [
    (['r'], 0, [{ name := ['A'], spec := .all, extras := some [['e']] }, { name := ['b'], spec := .all }]),
    (['a'], 1, []),
    (['a'], 2, [extraOnly { name := ['c'], spec := ge 2 }, { name := ['d'], spec := .all, applies := fun _ => false }]),
    (['b'], 1, [{ name := ['c'], spec := lt 2 }]),
    (['c'], 1, []), (['c'], 2, []), (['c'], 3, []), (['d'], 1, [])]
    [(['c'], { name := ['c'], spec := lt 3 })]

/-- a 2 needs, for the extra e, an older a. -/
def pinned : Setting Ver VSpec :=
  setting [
    (['r'], 0, [{ name := ['a'], spec := ge 2, extras := some [['e']] }]),
    (['a'], 1, []),
    (['a'], 2, [extraOnly { name := ['a'], spec := lt 2 }])] []

/-- r needs a[] in version 2 and a in version 1. -/
def emptyExtras : Setting Ver VSpec :=
  setting [
    (['r'], 0, [{ name := ['a'], spec := ge 2, extras := some [] }, { name := ['a'], spec := lt 2 }]),
    (['a'], 1, []), (['a'], 2, [])] []

/-- The override of a is given for "A". -/
def otherCase : Setting Ver VSpec :=
  setting [
    (['r'], 0, [{ name := ['a'], spec := .all }]),
    (['a'], 1, []), (['a'], 2, [])] [(['A'], { name := ['A'], spec := lt 2 })]

end ResolverExample
open ResolverExample

/-- The hypotheses are met: a with its extra, and the overridden c. -/
example : outcome good 30 = .inr [(['r'], ver 0), (['b'], ver 1), (['a'], ver 2), (['c'], ver 2)] := by decide +kernel

/-- C18 fails for the version of a package with extras: `a[e]` needs `a` at its own version 2, and a further
dependency on `a` takes the place of that. The resolver selects `a[e]` at 2 and returns `a` at 1. -/
theorem resolver_extras_violated :
    outcome pinned 30 = .inr [(['r'], ver 0), (['a'], ver 1)] ∧
    solve specifiers (Resolver.problem specifiers pinned) ResolverExample.choices 30 =
      .ok [(⟨['r'], none⟩, ver 0), (⟨['a'], some [['e']]⟩, ver 2), (⟨['a'], none⟩, ver 1)] := by
  exact ⟨by decide +kernel, by rfl⟩

/-- C18 fails for an empty list of extras: it makes an entry of its own, and the package is returned twice. -/
theorem resolver_empty_extras_violated :
    outcome emptyExtras 30 = .inr [(['r'], ver 0), (['a'], ver 2), (['a'], ver 1)] ∨
    outcome emptyExtras 30 = .inr [(['r'], ver 0), (['a'], ver 1), (['a'], ver 2)] := by decide +kernel

/-- C18 fails for overrides whose name is spelled in another case than the dependency. -/
theorem resolver_override_case_violated :
    outcome otherCase 30 = .inr [(['r'], ver 0), (['a'], ver 2)] := by decide +kernel

end Pkm
