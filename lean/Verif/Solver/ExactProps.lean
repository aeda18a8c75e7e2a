import Verif.Solver.Decide
import Verif.Solver.SearchProps
set_option linter.unusedVariables false
set_option linter.unusedSimpArgs false
/-
C14 with exact operations on specifiers: every successful resolution solves the problem.
-/
namespace Pkm
open Solver Spec

variable {P V S : Type} [DecidableEq P]

/-- C14 for exact specifier operations and problems whose neighbouring versions share no dependency: a successful
resolution has the root at its first version, offered versions only, and every dependency of every selected
version at a version it allows. Missing: the operations of version_specifiers.py are not all exact, and with
shared dependencies the claim is false (`resolution_satisfies_violated`). -/
theorem resolution_solves_partial {alg : Alg V S} {prob : Problem P V S} {ch : Choices P S} (hx : Exact alg)
    (hu : Unshared alg prob) {fuel : Nat} {sol : Dict P V} (h : solve alg prob ch fuel = .ok sol) : Solves alg prob sol := by
  obtain ⟨s, v, hi, hg, hun, rfl, hv, a, ha, -, hroot⟩ := solve_good hx hu h
  refine ⟨?_, ⟨v, hv, ?_⟩, ?_, ?_⟩
  · unfold Dict.Wf Dict.keys St.solution
    rw [List.map_map]
    exact hi.inv.wfD
  · obtain ⟨b, w, hb⟩ := required_decided hun hi.inv.root
    have := hroot w ((hi.part.dec _ _ _ hb).1 a ha)
    subst this
    exact mem_solution.2 ⟨b, hb⟩
  · intro p v hp
    obtain ⟨b, hb⟩ := mem_solution.1 hp
    exact (hi.inv.dec p b v hb).1
  · intro p v hp
    obtain ⟨b, hb⟩ := mem_solution.1 hp
    obtain ⟨-, ds, hds, hq⟩ := hi.inv.dec p b v hb
    refine ⟨ds, hds, ?_⟩
    intro q c hqc
    obtain ⟨l, h1, -⟩ := hq q (List.mem_map.2 ⟨_, hqc, rfl⟩)
    obtain ⟨b', w, h2⟩ := required_decided hun h1
    refine ⟨w, mem_solution.2 ⟨b', h2⟩, ?_⟩
    obtain ⟨x, h3, h4⟩ := hg p b v ds hb hds q c hqc
    have h5 := (List.mem_filter.1 (List.mem_of_getLast? h3)).1
    exact h4 w ((hi.part.dec _ _ _ h2).1 x h5)

/-! ### Exact operations: the sets of numbers below `n` -/

namespace SolverExample

/-- Sets of versions with their operations. -/
def sets (n : Nat) : Alg (Fin n) (Fin n → Bool) where
  allows a v := a v
  inter a b := .ok (fun v => a v && b v)
  union a b := .ok (fun v => a v || b v)
  inverse a := .ok (fun v => !a v)
  allowsAny a b := .ok ((List.finRange n).any (fun v => a v && b v))
  allowsAll a b := .ok ((List.finRange n).all (fun v => !b v || a v))
  same a b := (List.finRange n).all (fun v => a v == b v)
  isNone a := !(List.finRange n).any a
  all := fun _ => true
  single v := fun w => w = v
  range lo hi incl := .ok (fun v => lo.all (fun l => l < v) && hi.all (fun h => v < h || (incl && v = h)))
  nonStandard _ := none
  lt a b := a < b

theorem sets_exact (n : Nat) : Exact (sets n) where
  inter a b r v h := by simp only [sets, Except.ok.injEq] at h ⊢; subst h; simp
  inverse a r v h := by simp only [sets, Except.ok.injEq] at h ⊢; subst h; simp
  allowsAny a b r h := by simp only [sets, Except.ok.injEq] at h ⊢; subst h; simp
  allowsAll a b r v h _ := by
    simp only [sets, Except.ok.injEq] at h ⊢; subst h
    simp only [List.all_eq_true, List.mem_finRange, Bool.or_eq_true, Bool.not_eq_true', true_implies]
    constructor
    · intro h w hw
      rcases h w with h | h
      · rw [hw] at h; simp at h
      · exact h
    · intro h w
      cases hw : b w with
      | false => exact .inl rfl
      | true => exact .inr (h w hw)
  same a b v h := by
    simp only [sets, List.all_eq_true, List.mem_finRange, true_implies, beq_iff_eq] at h ⊢
    exact h v
  isNone a v h := by
    simp only [sets, Bool.not_eq_true', List.any_eq_false, List.mem_finRange, true_implies] at h ⊢
    exact h v
  all v := rfl
  single v w := by simp [sets]
  range lo hi incl r v h := by
    simp only [sets, Except.ok.injEq] at h ⊢; subst h
    cases lo <;> cases hi <;> simp
  nonStandard a v h := by simp [sets] at h
  ltIrrefl v := by simp [sets]
  ltTrans u v w h h' := by simp only [sets, decide_eq_true_eq] at *; exact Nat.lt_trans h h'
  ltTotal u v := by
    simp only [sets, decide_eq_true_eq]
    rcases Nat.lt_trichotomy u.val v.val with h | h | h
    · exact .inl h
    · exact .inr (.inl (Fin.ext h))
    · exact .inr (.inr h)

/-- The numbers in the list. -/
def oneOf (l : List (Fin 3)) : Fin 3 → Bool := fun v => l.contains v

/-- The root needs 1 and 2; the latest versions of 1 and 2 exclude each other, and a version of 3 is missing. -/
def setDeps : Nat → Fin 3 → List (Nat × (Fin 3 → Bool))
  | 0, _ => [(1, oneOf [0, 1, 2]), (2, oneOf [1, 2])]
  | 1, 2 => [(2, oneOf [0])]
  | 1, 1 => [(3, oneOf [0, 2])]
  | 2, 2 => [(3, oneOf [2])]
  | 2, 1 => [(3, oneOf [0, 1])]
  | _, _ => []

def setProblem : Problem Nat (Fin 3) (Fin 3 → Bool) where
  root := 0
  versions p := if p = 0 then [0] else if p = 3 then [1, 0] else [2, 1, 0]
  deps p v := some (setDeps p v)
  hasVersion _ _ := false
  strLe p q := p ≤ q

def setOutcome (fuel : Nat) : Sum Solver.Err (Dict Nat (Fin 3)) :=
  match solve (sets 3) setProblem ⟨fun _ _ => 0, fun _ l => l⟩ fuel with
  | .ok s => .inr s
  | .error e => .inl e

end SolverExample
open SolverExample

/-- The hypotheses are met: the versions 1 and 2 of package 2 both need package 3, but different versions of it. -/
theorem setProblem_unshared : Unshared (sets 3) setProblem where
  nodup p := by
    simp only [setProblem]
    split
    · decide
    · split <;> decide
  once p v ds h := by
    simp only [setProblem, Option.some.injEq] at h
    subst h
    match p, v with
    | 0, v => decide +revert
    | 1, v => decide +revert
    | 2, v => decide +revert
    | n + 3, v => simp [setDeps]
  neighbours p v w ds es q c d hv hw hlt hn hds hes hc hd := by
    simp only [setProblem, Option.some.injEq] at hds hes
    subst hds hes
    match p, v, w with
    | 0, v, w =>
      simp only [setProblem, if_true, List.mem_singleton] at hv hw
      subst hv hw
      simp [sets] at hlt
    | 1, 0, w => simp [setDeps] at hc
    | 1, 1, 0 => simp [setDeps] at hd
    | 1, 1, 1 => simp [sets] at hlt
    | 1, 1, 2 =>
      simp only [setDeps, List.mem_singleton, Prod.mk.injEq] at hc hd
      omega
    | 1, 2, w =>
      have : ¬ (2 : Fin 3) < w := (by decide : ∀ w : Fin 3, ¬ (2 : Fin 3) < w) w
      simp [sets, this] at hlt
    | 2, 0, w => simp [setDeps] at hc
    | 2, 1, 0 => simp [setDeps] at hd
    | 2, 1, 1 => simp [sets] at hlt
    | 2, 1, 2 =>
      simp only [setDeps, List.mem_singleton, Prod.mk.injEq] at hc hd
      rw [hc.2, hd.2]
      decide
    | 2, 2, w =>
      have : ¬ (2 : Fin 3) < w := (by decide : ∀ w : Fin 3, ¬ (2 : Fin 3) < w) w
      simp [sets, this] at hlt
    | n + 3, v, w => simp [setDeps] at hc

example : setOutcome 30 = .inr [(0, 0), (2, 1), (1, 1), (3, 0)] := by decide +kernel

example : ∃ sol, solve (sets 3) setProblem ⟨fun _ _ => 0, fun _ l => l⟩ 30 = .ok sol ∧ sol.length = 4 ∧
    Solves (sets 3) setProblem sol := by
  have h : setOutcome 30 = .inr [(0, 0), (2, 1), (1, 1), (3, 0)] := by decide +kernel
  unfold setOutcome at h
  split at h
  · rename_i sol hs
    simp at h
    exact ⟨sol, hs, by rw [h]; rfl, resolution_solves_partial (sets_exact 3) setProblem_unshared hs⟩
  · simp at h

end Pkm
