import Verif.Build.Lemmas
set_option linter.unusedVariables false
set_option linter.unusedSectionVars false
/-
Property C40: recursive builds of source distributions.
-/
namespace Pkm.Build
variable {P : Type} [DecidableEq P]

/-- C40: however the build requirements are connected, no package is built inside its own build (as
long as no build environment is sent to another process); for every cache and every amount of steps. -/
theorem build_never_nested (cfg : Cfg P) (hl : Local cfg) (f : Nat) (p : P) (k : Kind) (s : St P)
    (hlog : s.log = []) : NeverNested (ask cfg f p k s).2.log := by
  have hinv : ∀ s : St P, NeverNested s.log → openBuilds s.log [] = [] → Inv { s with path := [] } :=
    fun s h1 h2 => ⟨h1, by simp [h2]⟩
  have h0 : NeverNested ([] : List (Ev P)) := by intro n; simp [openBuilds]
  simp only [ask, askWith]
  split
  · rw [hlog]; exact h0
  · simp only [attempt, withPath, if_true]
    have h1 := build_post cfg hl f p k { clear p s with path := [] }
      (hinv (clear p s) (by simp [hlog, h0]) (by simp [hlog, openBuilds]))
    cases hx : build cfg f p k { clear p s with path := [] } with
    | mk o s' =>
      rw [hx] at h1
      cases o with
      | none => simpa using h1.never
      | some e =>
        simp only
        split
        · have hempty : openBuilds s'.log [] = [] := by
            rw [h1.same]; simp [hlog, openBuilds]
          have h2 := build_post cfg hl f p .wheel { s' with path := [] } (hinv s' h1.never hempty)
          cases hy : build cfg f p .wheel { s' with path := [] } with
          | mk o' s'' =>
            rw [hy] at h2
            cases o' with
            | none => simpa using h2.never
            | some e' => simpa using h2.never
        · simpa using h1.never

/-- C40: building ends: with the packages needed among finitely many, nested no deeper than their
number. -/
theorem build_ends (cfg : Cfg P) (hl : Local cfg) (U : List P)
    (hU : ∀ p, p ∈ U → ∀ r, r ∈ cfg.reqs p → r.pkg ∈ U) (p : P) (hp : p ∈ U) (k : Kind) (s : St P)
    (f : Nat) (hf : U.length < f) : (ask cfg f p k s).1 ≠ some .fuel := by
  have hleft : left U [] < f := by
    have : left U [] ≤ U.length := by simp only [left]; exact List.length_filter_le _ _
    omega
  simp only [ask, askWith]
  split
  · simp
  · simp only [attempt, withPath, if_true]
    have h1 := build_fuel cfg hl U hU f p k { clear p s with path := [] } hp hleft
    cases hx : build cfg f p k { clear p s with path := [] } with
    | mk o s' =>
      rw [hx] at h1
      cases o with
      | none => simp
      | some e =>
        simp only
        split
        · have h2 := build_fuel cfg hl U hU f p .wheel { s' with path := [] } hp hleft
          cases hy : build cfg f p .wheel { s' with path := [] } with
          | mk o' s'' =>
            rw [hy] at h2
            cases o' with
            | none => simp
            | some e' => simpa using h2
        · simpa using h1

/-- C40: builds are completed in an order in which everything a build asked for, directly or not, is
completed before it; also when environments are sent to other processes. -/
theorem build_order (cfg : Cfg P) (f : Nat) (p : P) (k : Kind) (s : St P) (hlog : s.log = [])
    (hc : ∀ q, s.hasMeta q = false) (a b : List (Ev P)) (x y : P)
    (h : (ask cfg f p k s).2.log = a ++ .done x :: b) (hy : Needs cfg x y) : Ev.done y ∈ a := by
  have h1 := askWith_order cfg (build cfg f) (build_order_inv cfg f) ⟨p, k, true⟩ s
    ⟨by rw [hlog]; intro a b x h; simp at h, fun q hq => by simp [hc] at hq⟩
  exact ordered_needs cfg _ h1.1.inv.ordered a b x h y hy

/-- C40: a request that succeeds, starting with an empty cache, shows that there is no cycle below it;
so every cycle makes the build fail. -/
theorem build_success_acyclic (cfg : Cfg P) (f : Nat) (p : P) (k : Kind) (s : St P) (hlog : s.log = [])
    (hc : ∀ q, s.hasMeta q = false) (h : (ask cfg f p k s).1 = none) (x : P)
    (hx : x = p ∨ Needs cfg p x) : ¬ Needs cfg x x := by
  intro hcy
  have h1 := askWith_order cfg (build cfg f) (build_order_inv cfg f) ⟨p, k, true⟩ s
    ⟨by rw [hlog]; intro a b x h; simp at h, fun q hq => by simp [hc] at hq⟩
  have hd : Ev.done p ∈ (ask cfg f p k s).2.log := h1.2 h
  have hdx : Ev.done x ∈ (ask cfg f p k s).2.log := by
    rcases hx with rfl | hx
    · exact hd
    · obtain ⟨a, b, e⟩ := List.append_of_mem hd
      have := ordered_needs cfg _ h1.1.inv.ordered a b p e x hx
      change Ev.done x ∈ (ask cfg f p k s).2.log
      rw [e]; simp [this]
  -- the first completion of `x`
  have first : ∀ l : List (Ev P), Ev.done x ∈ l → ∃ a b, l = a ++ .done x :: b ∧ Ev.done x ∉ a := by
    intro l
    induction l with
    | nil => simp
    | cons e es ih =>
      intro hm
      by_cases he : e = .done x
      · exact ⟨[], es, by simp [he], by simp⟩
      · obtain ⟨a, b, h1, h2⟩ := ih (by simp at hm; rcases hm with h | h; exact absurd h.symm he; exact h)
        exact ⟨e :: a, b, by simp [h1], by simp [h2, Ne.symm he]⟩
  obtain ⟨a, b, e, hn⟩ := first _ hdx
  exact hn (ordered_needs cfg _ h1.1.inv.ordered a b x e x hcy)

/-- C40: a reported cycle is a real one, if no two requests of one build lead to the same package and
all back-ends have the metadata hook. Without these conditions it is not (below). -/
theorem build_cycle_partial (cfg : Cfg P) (hl : Local cfg) (ho : NeedsOnce cfg)
    (hh : ∀ p, cfg.hook p = true) (f : Nat) (p : P) (k : Kind) (s : St P) (c : List P) (q : P)
    (h : (ask cfg f p k s).1 = some (.cycle c q)) : ∃ x, (x = p ∨ Needs cfg p x) ∧ Needs cfg x x := by
  apply Classical.byContradiction
  intro hno
  have hac : ∀ x, Below cfg p x → ¬ Needs cfg x x := fun x hx hcy => hno ⟨x, hx, hcy⟩
  have h1 := build_noCycle cfg hl ho hh f p k { clear p s with path := [] } hac (by simp)
  simp only [ask, askWith] at h
  split at h
  · simp at h
  · simp only [attempt, withPath, if_true] at h
    cases hx : build cfg f p k { clear p s with path := [] } with
    | mk o s' =>
      rw [hx] at h1 h
      cases o with
      | none => simp at h
      | some e =>
        have hne : ¬ (e = .missingHook ∧ k = .metadata) := by
          rintro ⟨rfl, _⟩; exact h1.2.1 rfl
        simp only [if_neg hne] at h
        exact h1.1 c q h

/-! ## examples -/

/-- `0` needs `1` and `2`, `1` needs `3`. -/
private def exTree : Cfg Nat where
  reqs p := match p with
    | 0 => [⟨1, .wheel, false⟩, ⟨2, .metadata, false⟩]
    | 1 => [⟨3, .wheel, false⟩]
    | _ => []

private theorem exTree_needs (p q : Nat) (h : Needs exTree p q) :
    (p = 0 ∧ (q = 1 ∨ q = 2 ∨ q = 3)) ∨ (p = 1 ∧ q = 3) := by
  have hr : ∀ p r, r ∈ exTree.reqs p → (p = 0 ∧ (r.pkg = 1 ∨ r.pkg = 2)) ∨ (p = 1 ∧ r.pkg = 3) := by
    intro p r hr
    match p, hr with
    | 0, hr => simp [exTree] at hr; rcases hr with rfl | rfl <;> simp
    | 1, hr => simp [exTree] at hr; subst hr; simp
    | n + 2, hr => simp [exTree] at hr
  induction h with
  | direct r h => rcases hr p r h with h | h <;> omega
  | step q r _ h ih => rcases hr q r h with h | h <;> omega

/-- The hypotheses are met, and the build succeeds. -/
example : Local exTree ∧ NeedsOnce exTree ∧ (∀ p, p ∈ [0, 1, 2, 3] → ∀ r, r ∈ exTree.reqs p → r.pkg ∈ [0, 1, 2, 3]) ∧
    (ask exTree 5 0 .wheel {}).1 = none ∧
    (ask exTree 5 0 .wheel {}).2.log = [.start 0, .start 1, .start 3, .done 3, .done 1, .start 2, .done 2, .done 0] := by
  refine ⟨?_, ?_, ?_, by decide +kernel, by decide +kernel⟩
  · intro p r hr
    match p, hr with
    | 0, hr => simp [exTree] at hr; rcases hr with rfl | rfl <;> rfl
    | 1, hr => simp [exTree] at hr; subst hr; rfl
    | n + 2, hr => simp [exTree] at hr
  · intro p
    match p with
    | 0 =>
      simp only [exTree, List.pairwise_cons, List.mem_singleton, forall_eq]
      refine ⟨?_, by simp⟩
      intro q h1 h2
      have a1 : q = 1 ∨ q = 3 := by
        rcases h1 with h | h
        · exact Or.inl h
        · have := exTree_needs _ _ h; simp at this; exact Or.inr this
      have a2 : q = 2 := by
        rcases h2 with h | h
        · exact h
        · have := exTree_needs _ _ h; simp at this
      omega
    | 1 => simp [exTree]
    | n + 2 => simp [exTree]
  · decide

/-! ## false cycles and endless builds -/

/-- The dictionary is never emptied: when the metadata of a build requirement was built while resolving,
building its wheel afterwards is reported as a cycle, although nothing needs itself. (`0` needs `1`; `1`
needs nothing.) -/
theorem build_meta_then_wheel_violated :
    let cfg : Cfg Nat := { reqs := fun p => if p = 0 then [⟨1, .metadata, false⟩, ⟨1, .wheel, false⟩] else [] }
    (ask cfg 5 0 .wheel {}).1 = some (.cycle [0, 1] 1) ∧ ∀ x, ¬ Needs cfg x x := by
  refine ⟨by decide +kernel, ?_⟩
  have key : ∀ x y, Needs { reqs := fun p => if p = 0 then [⟨1, .metadata, false⟩, ⟨1, .wheel, false⟩] else [] } x y →
      x = 0 ∧ y = 1 := by
    intro x y h
    induction h with
    | direct r hr =>
      simp only at hr
      split at hr
      · simp at hr; rcases hr with rfl | rfl <;> simp_all
      · simp at hr
    | step q r _ hr ih =>
      simp only at hr
      split at hr
      · omega
      · simp at hr
  intro x h
  have := key x x h
  omega

/-- A build requirement whose back-end has no metadata hook is reported as a cycle on the second
attempt. -/
theorem build_missing_hook_violated :
    let cfg : Cfg Nat := { reqs := fun p => if p = 0 then [⟨1, .metadata, false⟩] else [], hook := fun p => p != 1 }
    (ask cfg 5 0 .wheel {}).1 = some (.cycle [0, 1] 1) ∧ ∀ x, ¬ Needs cfg x x := by
  refine ⟨by decide +kernel, ?_⟩
  have key : ∀ x y, Needs { reqs := fun p => if p = 0 then [⟨1, .metadata, false⟩] else [], hook := fun p => p != 1 } x y →
      x = 0 ∧ y = 1 := by
    intro x y h
    induction h with
    | direct r hr =>
      simp only at hr
      split at hr
      · simp at hr; subst hr; simp_all
      · simp at hr
    | step q r _ hr ih =>
      simp only at hr
      split at hr
      · omega
      · simp at hr
  intro x h
  have := key x x h
  omega

/-- Two builds that need each other and are installed by other processes recurse for ever: the
dictionary is not sent along. -/
theorem build_processes_violated :
    let cfg : Cfg Nat := { reqs := fun p => [⟨1 - p, .wheel, true⟩] }
    (∀ f, (ask cfg f 0 .wheel {}).1 = some .fuel) ∧
    ¬ NeverNested (ask cfg 3 0 .wheel {}).2.log := by
  constructor
  · have hask : ∀ f q (s : St Nat), (∀ x, s.hasWheel x = false) →
        (∀ p k (s : St Nat), s.path = [] → (∀ x, s.hasWheel x = false) →
          (build { reqs := fun p => [⟨1 - p, .wheel, true⟩] } f p k s).1 = some .fuel) →
        (askWith (build { reqs := fun p => [⟨1 - p, .wheel, true⟩] } f) ⟨q, .wheel, true⟩ s).1 = some .fuel := by
      intro f q s hs ih
      have hc : cached q .wheel s = false := by simp [cached, hs]
      have h1 := ih q .wheel { clear q s with path := [] } rfl (by intro x; simp [clear, hs])
      simp only [askWith, hc, attempt, withPath, if_true]
      cases hx : build { reqs := fun p => [⟨1 - p, .wheel, true⟩] } f q .wheel { clear q s with path := [] } with
      | mk o s' =>
        rw [hx] at h1
        simp only at h1
        subst h1
        simp
    have key : ∀ f p k (s : St Nat), s.path = [] → (∀ x, s.hasWheel x = false) →
        (build { reqs := fun p => [⟨1 - p, .wheel, true⟩] } f p k s).1 = some .fuel := by
      intro f
      induction f with
      | zero => intro p k s _ _; rfl
      | succ f ih =>
        intro p k s hs hw
        have h1 := hask f (1 - p) { s with path := [p], log := s.log ++ [.start p] } hw ih
        simp only [build, hs, List.not_mem_nil, if_false, runAll, List.nil_append]
        cases hx : askWith (build { reqs := fun p => [⟨1 - p, .wheel, true⟩] } f) ⟨1 - p, .wheel, true⟩
            { s with path := [p], log := s.log ++ [.start p] } with
        | mk o s' =>
          rw [hx] at h1
          simp only at h1
          subst h1
          rfl
    intro f
    exact hask f 0 {} (by simp) (key f)
  · intro h
    have := h 3
    revert this
    decide +kernel

end Pkm.Build
