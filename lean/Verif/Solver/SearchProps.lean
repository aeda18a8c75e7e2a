import Verif.Solver.Run
import Verif.Solver.Specifiers
set_option linter.unusedVariables false
set_option linter.unusedSimpArgs false
set_option linter.unusedSectionVars false
/-
C15, C16 and the part of C14 that needs no law of the specifiers: what every search of the solver keeps.
-/
namespace Pkm
open Solver Spec

variable {P V S : Type} [DecidableEq P]

namespace Spec

/-- The package is the root or, in turn, a dependency of a needed package at its selected version. -/
inductive Reached (prob : Problem P V S) (sol : Dict P V) : P → Prop where
  | root : Reached prob sol prob.root
  | dependency {p q : P} {v : V} (h : Reached prob sol p) (hs : (p, v) ∈ sol) (hd : DependsOn prob p v q) : Reached prob sol q

/-- Each dependency of each selected version is selected at a version it allows. -/
def Satisfied (alg : Alg V S) (prob : Problem P V S) (sol : Dict P V) : Prop :=
  ∀ p v, (p, v) ∈ sol → ∃ ds, prob.deps p v = some ds ∧ ∀ q c, (q, c) ∈ ds → ∃ w, (q, w) ∈ sol ∧ alg.allows c w = true

/-- The versions are offered, include the root at its first version and satisfy all dependencies. -/
def Solves (alg : Alg V S) (prob : Problem P V S) (sol : Dict P V) : Prop :=
  Dict.Wf sol ∧ (∃ v, (prob.versions prob.root).head? = some v ∧ (prob.root, v) ∈ sol) ∧
    (∀ p v, (p, v) ∈ sol → Offers prob p v) ∧ Satisfied alg prob sol

end Spec

/-! ### A small problem: versions [n], packages are numbers -/

namespace SolverExample

/-- The version with this release segment. -/
def ver (n : Nat) : SV := { release := [n] }
/-- `>=n` -/
def ge (n : Nat) : VSpec := .range (some (ver n)) none true false
/-- `==n` -/
def eq (n : Nat) : VSpec := .vmatch (.std (ver n)) true

/-- The problem where package `p` has the versions `0..`, each with these dependencies; the latest is offered
first. -/
def problem (table : List (List (List (Nat × VSpec)))) : Problem Nat Ver VSpec where
  root := 0
  versions p := (List.range ((table[p]?).getD []).length).reverse.map (fun n => .std (ver n))
  deps p v :=
    match v with
    | .std s => some ((((table[p]?).getD [])[s.release.head?.getD 0]?).getD [])
    | _ => none
  hasVersion _ _ := false
  strLe p q := p ≤ q

/-- Sets give their elements in the order of insertion. -/
def choices : Choices Nat VSpec := ⟨fun _ _ => 0, fun _ l => l⟩

def solution (sol : List (Nat × Nat)) : Dict Nat Ver := sol.map (fun e => (e.1, .std (ver e.2)))

/-- What `solve` does, as a value that can be compared. -/
def outcome (table : List (List (List (Nat × VSpec)))) (fuel : Nat) : Sum Solver.Err (Dict Nat Ver) :=
  match solve specifiers (problem table) choices fuel with
  | .ok s => .inr s
  | .error e => .inl e

/-- The root needs 1 and 2; version 1 of 1 needs `2==0`, version 2 of 2 needs `3>=1`. The latest versions of 1 and
2 exclude each other. -/
def table1 : List (List (List (Nat × VSpec))) :=
  [[[(1, .all), (2, ge 1)]], [[], [(2, eq 0)]], [[], [(3, .all)], [(3, ge 1)]], [[], []]]

end SolverExample

open SolverExample

example : outcome table1 30 = .inr (solution [(0, 0), (1, 0), (2, 2), (3, 1)]) := by decide +kernel

/-! ### C14, C15 -/

section
variable {alg : Alg V S} {prob : Problem P V S} {ch : Choices P S}

theorem mem_solution {s : St P V S} {p : P} {v : V} : (p, v) ∈ s.solution ↔ ∃ a, (p, a, v) ∈ s.decisions := by
  unfold St.solution
  rw [List.mem_map]
  constructor
  · rintro ⟨⟨q, a, w⟩, h1, h2⟩
    simp at h2
    obtain ⟨rfl, rfl⟩ := h2
    exact ⟨a, h1⟩
  · rintro ⟨a, h⟩
    exact ⟨_, h, rfl⟩

theorem required_decided {s : St P V S} (h : s.undecided = []) {p : P} {l : Nat} (hp : (p, l) ∈ s.required) :
    ∃ a v, (p, a, v) ∈ s.decisions := by
  unfold St.undecided at h
  rw [List.filter_eq_nil_iff] at h
  have := h p (List.mem_map.2 ⟨_, hp, rfl⟩)
  simp only [Bool.not_eq_true', Bool.not_eq_false] at this
  rw [has_iff] at this
  unfold Dict.keys at this
  rw [List.mem_map] at this
  obtain ⟨⟨q, a, v⟩, h1, rfl⟩ := this
  exact ⟨a, v, h1⟩

/-- C15: no package is selected at two versions. -/
theorem resolution_one_version {fuel : Nat} {sol : Dict P V} (h : solve alg prob ch fuel = .ok sol) :
    ∀ p v w, (p, v) ∈ sol → (p, w) ∈ sol → v = w := by
  obtain ⟨s0, s, -, -, hi, -, rfl⟩ := solve_search h
  have hw : Dict.Wf s.solution := by
    unfold Dict.Wf Dict.keys St.solution
    rw [List.map_map]
    exact hi.wfD
  intro p v w hv hw'
  have a := Dict.mem_get _ _ _ hw hv
  have b := Dict.mem_get _ _ _ hw hw'
  rw [a] at b
  exact Option.some.inj b

/-- C15: every selected package is the root or reached from the root by dependencies of selected versions. -/
theorem resolution_needed {fuel : Nat} {sol : Dict P V} (h : solve alg prob ch fuel = .ok sol) :
    ∀ p v, (p, v) ∈ sol → Reached prob sol p := by
  obtain ⟨s0, s, -, -, hi, -, rfl⟩ := solve_search h
  have key : ∀ (n : Nat) (p : P) (a : Asg P S) (v : V), (p, a, v) ∈ s.decisions → a.level < n → Reached prob s.solution p := by
    intro n
    induction n with
    | zero => intro p a v _ hn; omega
    | succ n ih =>
      intro p a v hp hn
      obtain ⟨l, h1, h2⟩ := hi.decReq p a v hp
      by_cases e : p = prob.root
      · subst e; exact .root
      · rcases hi.req p l h1 with h3 | ⟨q, b, w, h3, h4, h5⟩
        · exact absurd h3 e
        · have h6 : l < a.level := by
            rcases h2 with h2 | h2
            · exact absurd h2 e
            · exact h2
          exact .dependency (ih q b w h3 (by omega)) (mem_solution.2 ⟨b, h3⟩) h5
  intro p v hp
  obtain ⟨a, ha⟩ := mem_solution.1 hp
  exact key _ p a v ha (Nat.lt_succ_self _)

/-- C14 without the constraints: the root is selected, every selected version is offered and not malformed, and
each of its dependencies is selected at some version. Missing: that the constraint of the dependency allows that
version, which is false (`resolution_satisfies_violated`). -/
theorem resolution_closed_partial {fuel : Nat} {sol : Dict P V} (h : solve alg prob ch fuel = .ok sol) :
    (∃ v, (prob.root, v) ∈ sol) ∧
    ∀ p v, (p, v) ∈ sol → Offers prob p v ∧ ∃ ds, prob.deps p v = some ds ∧ ∀ q c, (q, c) ∈ ds → ∃ w, (q, w) ∈ sol := by
  obtain ⟨s0, s, -, -, hi, hu, rfl⟩ := solve_search h
  constructor
  · obtain ⟨a, v, h1⟩ := required_decided hu hi.root
    exact ⟨v, mem_solution.2 ⟨a, h1⟩⟩
  · intro p v hp
    obtain ⟨a, ha⟩ := mem_solution.1 hp
    obtain ⟨ho, ds, hds, hq⟩ := hi.dec p a v ha
    refine ⟨ho, ds, hds, fun q c hqc => ?_⟩
    obtain ⟨l, h1, -⟩ := hq q (List.mem_map.2 ⟨_, hqc, rfl⟩)
    obtain ⟨b, w, h2⟩ := required_decided hu h1
    exact ⟨w, mem_solution.2 ⟨b, h2⟩⟩

example : solve specifiers (problem table1) choices 30 = .ok (solution [(0, 0), (1, 0), (2, 2), (3, 1)]) := by
  have h : outcome table1 30 = .inr (solution [(0, 0), (1, 0), (2, 2), (3, 1)]) := by decide +kernel
  unfold outcome at h
  split at h <;> simp_all

/-! ### C16 -/

/-- C16: after any search, backtracking keeps exactly the assignments, decisions and requirements up to the
level; decision levels are 0, 1, .., the assignments are ordered by level, numbered by position and grouped by
package. -/
theorem backtrack_keeps {s0 s : St P V S} (h0 : start alg prob = .ok s0) (h : Search alg prob s0 s) (L : Nat)
    (hL : L ≤ s.decisionLevel) :
    (∀ a, a ∈ (s.backtrack L).byOrder ↔ a ∈ s.byOrder ∧ a.level ≤ L) ∧
    (∀ p a, a ∈ (s.backtrack L).asgsOf p ↔ a ∈ s.asgsOf p ∧ a.level ≤ L) ∧
    (∀ e, e ∈ (s.backtrack L).decisions ↔ e ∈ s.decisions ∧ e.2.1.level ≤ L) ∧
    (∀ e, e ∈ (s.backtrack L).required ↔ e ∈ s.required ∧ e.2 ≤ L) ∧
    (s.backtrack L).decisions.map (fun e => e.2.1.level) = List.range (s.backtrack L).decisions.length ∧
    (s.backtrack L).byOrder.Pairwise (fun a b => a.level ≤ b.level) ∧
    (s.backtrack L).byOrder.map (·.order) = List.range (s.backtrack L).byOrder.length ∧
    (∀ p, (s.backtrack L).asgsOf p = (s.backtrack L).byOrder.filter (fun a => a.term.package = p)) ∧
    (s.decisions ≠ [] → (s.backtrack L).decisions.length = L + 1) := by
  have hi := (start_ok h0).1.search h
  have hb := hi.backtrack L hL
  refine ⟨fun a => mem_backtrack_order, fun p a => ?_, fun e => mem_backtrack_decisions, fun e => mem_backtrack_required,
    hb.levels, hb.sorted, hb.order, hb.refines, ?_⟩
  · rw [asgsOf_backtrack, List.mem_filter]; simp
  · intro hne
    rw [hi.backtrack_decisions L, List.length_take]
    have := List.length_pos_iff.2 hne
    unfold St.decisionLevel at hL
    omega

/-- C16: backtracking to a level below the current one gives the partial solution of an earlier moment of the
search, the one before the next decision was made. -/
theorem backtrack_restores {s0 s : St P V S} (h0 : start alg prob = .ok s0) (h : Search alg prob s0 s) (L : Nat)
    (hL : L < s.decisionLevel) :
    ∃ t, Search alg prob s0 t ∧ Search alg prob t s ∧ t.decisionLevel = L ∧ SamePartial (s.backtrack L) t := by
  induction h with
  | refl =>
    have := (start_ok h0).2.2.1
    unfold St.decisionLevel at hL
    rw [this] at hL
    simp at hL
  | @step t u hst hs ih =>
    have hi := (start_ok h0).1.search hst
    cases hs with
    | derived tm c hd =>
      have hlev : u.decisionLevel = t.decisionLevel := by
        obtain ⟨a, _, rfl⟩ := derive_ok hd; rfl
      rw [hlev] at hL
      obtain ⟨x, k1, k2, k3, k4⟩ := ih hL
      exact ⟨x, k1, .step k2 (.derived _ _ hd), k3, SamePartial.trans (hi.backtrack_derived hd L hL) k4⟩
    | decided p v ds a hp ho hd ha =>
      have hstep : SearchStep alg prob t ((t.decide a v).require ((depDict ds).map (·.package))) := .decided p v ds a hp ho hd ha
      have hlev : ((t.decide a v).require ((depDict ds).map (·.package))).decisionLevel = t.decisions.length := by
        have := (require_fields (t.decide a v) ((depDict ds).map (·.package))).1
        unfold St.decisionLevel
        rw [this]
        show (t.decisions.put _ _).length - 1 = _
        obtain ⟨m1, -⟩ := makeAssignment_ok ha
        rw [put_new _ _ _ (by rw [m1]; exact (mem_undecided hp).2)]
        simp
      rw [hlev] at hL
      have hb := hi.backtrack_decided (ds := ds) hp ha L hL
      by_cases e : L < t.decisionLevel
      · obtain ⟨x, k1, k2, k3, k4⟩ := ih e
        exact ⟨x, k1, .step k2 hstep, k3, SamePartial.trans hb k4⟩
      · have e' : L = t.decisionLevel := by unfold St.decisionLevel at *; omega
        exact ⟨t, hst, .step (.refl t) hstep, e'.symm, SamePartial.trans hb (e' ▸ hi.backtrack_self)⟩
    | backtracked K hK =>
      rw [hi.backtrack_level K hK] at hL
      obtain ⟨x, k1, k2, k3, k4⟩ := ih (by omega)
      exact ⟨x, k1, .step k2 (.backtracked K hK), k3, SamePartial.trans (backtrack_twice t K L (by omega)) k4⟩
    | other e =>
      have hlev : u.decisionLevel = t.decisionLevel := by unfold St.decisionLevel; rw [e.2.2.2]
      rw [hlev] at hL
      obtain ⟨x, k1, k2, k3, k4⟩ := ih hL
      exact ⟨x, k1, .step k2 (.other e), k3, SamePartial.trans (backtrack_congr (SamePartial.symm e) L) k4⟩

/-- C16: the runs of the solver are such searches. -/
theorem resolution_is_search {fuel : Nat} {sol : Dict P V} (h : solve alg prob ch fuel = .ok sol) :
    ∃ s0 s, start alg prob = .ok s0 ∧ Search alg prob s0 s ∧ sol = s.solution := by
  obtain ⟨s0, s, h1, h2, -, -, h3⟩ := solve_search h
  exact ⟨s0, s, h1, h2, h3⟩

end

/-- The hypotheses are met: the example ends with four decisions. -/
example : ∃ s0 s, start specifiers (problem table1) = .ok s0 ∧ Search specifiers (problem table1) s0 s ∧ 2 < s.decisionLevel := by
  have h : outcome table1 30 = .inr (solution [(0, 0), (1, 0), (2, 2), (3, 1)]) := by decide +kernel
  unfold outcome at h
  split at h
  · rename_i sol hs
    obtain ⟨s0, s, h1, h2, h3⟩ := resolution_is_search hs
    refine ⟨s0, s, h1, h2, ?_⟩
    have : s.solution.length = 4 := by rw [← h3]; simp at h; rw [h]; rfl
    unfold St.solution at this
    rw [List.length_map] at this
    unfold St.decisionLevel
    omega
  · simp at h

end Pkm
