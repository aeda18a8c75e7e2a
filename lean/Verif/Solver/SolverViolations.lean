import Verif.Solver.SearchProps
set_option linter.unusedVariables false
set_option linter.unusedSimpArgs false
set_option linter.unusedSectionVars false
/-
C14, C17 and C59: problems for which the solver gives a wrong answer, fails or does not end. All use the versions
and specifiers of the code.
-/
namespace Pkm
open Solver Spec SolverExample

theorem outcome_ok {table : List (List (List (Nat × VSpec)))} {fuel : Nat} {sol : Dict Nat Ver} (h : outcome table fuel = .inr sol) :
    solve specifiers (problem table) choices fuel = .ok sol := by
  unfold outcome at h
  split at h
  · rename_i hs; simp at h; rw [hs, h]
  · simp at h

theorem outcome_error {table : List (List (List (Nat × VSpec)))} {fuel : Nat} {e : Solver.Err} (h : outcome table fuel = .inl e) :
    solve specifiers (problem table) choices fuel = .error e := by
  unfold outcome at h
  split at h
  · simp at h
  · rename_i hs; simp at h; rw [hs, h]

namespace SolverExample

/-- A table problem with numbers for versions: the selection solves it. -/
def solvesTable (table : List (List (List (Nat × VSpec)))) (sol : List (Nat × Nat)) : Bool :=
  sol.all (fun e => decide (e.2 < ((table[e.1]?).getD []).length) &&
    (((((table[e.1]?).getD [])[e.2]?).getD []).all (fun d => sol.any (fun f => f.1 == d.1 && VSpec.allows d.2 (.std (ver f.2))))))

theorem solvesTable_solves {table : List (List (List (Nat × VSpec)))} {sol : List (Nat × Nat)}
    (h : solvesTable table sol = true) (hw : (sol.map (·.1)).Nodup) (hr : (0, ((table[0]?).getD []).length - 1) ∈ sol) :
    Solves specifiers (problem table) (solution sol) := by
  have hall : ∀ e ∈ sol, e.2 < ((table[e.1]?).getD []).length ∧ ∀ d ∈ ((((table[e.1]?).getD [])[e.2]?).getD []),
      ∃ f ∈ sol, f.1 = d.1 ∧ VSpec.allows d.2 (.std (ver f.2)) = true := by
    intro e he
    have := List.all_eq_true.1 h e he
    simp only [Bool.and_eq_true, decide_eq_true_eq, List.all_eq_true, List.any_eq_true, beq_iff_eq] at this
    exact this
  have hmem : ∀ p v, (p, v) ∈ solution sol → ∃ n, (p, n) ∈ sol ∧ v = .std (ver n) := by
    intro p v hv
    unfold solution at hv
    rw [List.mem_map] at hv
    obtain ⟨⟨q, n⟩, h1, h2⟩ := hv
    simp at h2
    obtain ⟨rfl, rfl⟩ := h2
    exact ⟨n, h1, rfl⟩
  refine ⟨?_, ?_, ?_, ?_⟩
  · unfold Dict.Wf Dict.keys solution
    rw [List.map_map]
    exact hw
  · have hlt := (hall _ hr).1
    simp only at hlt
    refine ⟨.std (ver (((table[0]?).getD []).length - 1)), ?_, ?_⟩
    · show ((List.range ((table[0]?).getD []).length).reverse.map _).head? = _
      rw [List.head?_map, List.head?_reverse, List.getLast?_range]
      rw [if_neg (by omega)]
      rfl
    · unfold solution
      rw [List.mem_map]
      exact ⟨_, hr, rfl⟩
  · intro p v hv
    obtain ⟨n, h1, rfl⟩ := hmem p v hv
    left
    show _ ∈ (List.range ((table[p]?).getD []).length).reverse.map _
    rw [List.mem_map]
    exact ⟨n, by simpa using (hall _ h1).1, rfl⟩
  · intro p v hv
    obtain ⟨n, h1, rfl⟩ := hmem p v hv
    refine ⟨_, rfl, ?_⟩
    intro q c hq
    obtain ⟨f, h2, h3, h4⟩ := (hall _ h1).2 (q, c) hq
    refine ⟨.std (ver f.2), ?_, h4⟩
    unfold solution
    rw [List.mem_map]
    simp only at h3
    subst h3
    exact ⟨f, h2, rfl⟩

/-- Package 2 needs `1==0` at both versions; versions 1 and 2 of package 3 need versions of 2 that do not exist, so
version 1 of package 2 is selected, withdrawn, and its dependencies computed a second time. -/
def tableWrong : List (List (List (Nat × VSpec))) :=
  [[[(1, .all), (2, .all), (3, .all)]], [[], []], [[(1, eq 0)], [(1, eq 0), (3, ge 1)]], [[], [(2, ge 9)], [(2, ge 2)]]]

/-- Version 0 of package 1 has no dependencies. -/
def tableUnsolvable : List (List (List (Nat × VSpec))) :=
  [[[(1, .all)]], [[], [(2, .all)], [(2, ge 2)]], [[(1, eq 2)]]]

def tableAssertion : List (List (List (Nat × VSpec))) :=
  [[[(2, .all)]], [[], [(3, .all)]], [[(1, .all)], [(3, ge 2)]], [[(2, ge 2)]]]

def tableIndex : List (List (List (Nat × VSpec))) :=
  [[[(4, .all)]], [[(3, .all)]], [[(4, eq 0)], [(3, eq 1)]], [[]], [[(2, .all)], [(1, .all), (2, .all)]]]

/-- Version 1 of package 1 needs package 2 in a version that satisfies nothing (as `>2,<1`). -/
def tableEndless : List (List (List (Nat × VSpec))) := [[[(1, .all)]], [[], [(2, .none)]], []]

/-- No selection: package 2 needs `1>=1`, package 3 needs `1==0` or a version of 2 that does not exist. -/
def tableEndless2 : List (List (List (Nat × VSpec))) :=
  [[[(1, .all), (2, .all), (3, .all)]], [[], []], [[(1, ge 1)], [(1, ge 1)]], [[(1, eq 0)], [(2, ge 3)]]]

/-- One turn of the loop of `solve` (pg 594-598). -/
def turn (table : List (List (List (Nat × VSpec)))) (fuel : Nat) (s : St Nat Ver VSpec) (p : Nat) :
    Except Solver.Err (St Nat Ver VSpec × Option Nat) := do
  let s ← propagate specifiers (problem table) choices fuel fuel s [p]
  nextDecision specifiers (problem table) s

/-- The state after some turns. -/
def turns (table : List (List (List (Nat × VSpec)))) (fuel : Nat) :
    Nat → St Nat Ver VSpec → Nat → Except Solver.Err (St Nat Ver VSpec × Nat)
  | 0, s, p => .ok (s, p)
  | n + 1, s, p => do
    match ← turn table fuel s p with
    | (s, some p) => turns table fuel n s p
    | (_, none) => .error .fuel

/-- The state after the start and some turns. -/
def reached (table : List (List (List (Nat × VSpec)))) (n : Nat) : St Nat Ver VSpec :=
  match start specifiers (problem table) with
  | .ok s =>
    match turns table 20 n s 0 with
    | .ok (s, _) => s
    | .error _ => St.empty
  | .error _ => St.empty

theorem solveLoop_turn (table : List (List (List (Nat × VSpec)))) (fuel n : Nat) (s s' : St Nat Ver VSpec) (p q : Nat)
    (h : turn table fuel s p = .ok (s', some q)) :
    solveLoop specifiers (problem table) choices fuel (n + 1) s p = solveLoop specifiers (problem table) choices fuel n s' q := by
  rw [solveLoop]
  unfold turn at h
  obtain ⟨u, h1, h2⟩ := bind_ok h
  simp only [bind, Except.bind, h1, h2]

/-- A state that comes back, but for the number of choices, makes the loop endless. -/
theorem solveLoop_endless (table : List (List (List (Nat × VSpec)))) (fuel p : Nat) (base : St Nat Ver VSpec)
    (h : ∀ k, turn table fuel { base with tick := k } p = .ok ({ base with tick := k + 1 }, some p)) :
    ∀ n k, solveLoop specifiers (problem table) choices fuel n { base with tick := k } p = .error .fuel := by
  intro n
  induction n with
  | zero => intro k; rfl
  | succ n ih =>
    intro k
    rw [solveLoop_turn table fuel n _ _ p p (h k)]
    exact ih (k + 1)

theorem solveLoop_turns (table : List (List (List (Nat × VSpec)))) (fuel : Nat) : ∀ (m n : Nat) (s s' : St Nat Ver VSpec) (p q : Nat),
    turns table fuel m s p = .ok (s', q) → (∀ n, solveLoop specifiers (problem table) choices fuel n s' q = .error .fuel) →
    solveLoop specifiers (problem table) choices fuel n s p = .error .fuel := by
  intro m
  induction m with
  | zero =>
    intro n s s' p q h hq
    simp [turns] at h
    obtain ⟨rfl, rfl⟩ := h
    exact hq n
  | succ m ih =>
    intro n s s' p q h hq
    cases n with
    | zero => rfl
    | succ n =>
      rw [turns] at h
      obtain ⟨⟨u, o⟩, h1, h2⟩ := bind_ok h
      cases o with
      | none => simp at h2
      | some r =>
        rw [solveLoop_turn table fuel n s u p r h1]
        exact ih n u s' r q h2 hq

end SolverExample

/-- C14 is false: the solver selects version 0 of package 2 together with version 1 of package 1, although the
former needs version 0 of the latter. A right selection exists. -/
theorem resolution_satisfies_violated :
    (∃ fuel sol, solve specifiers (problem tableWrong) choices fuel = .ok sol ∧ ¬ Satisfied specifiers (problem tableWrong) sol) ∧
    ∃ sol, Solves specifiers (problem tableWrong) sol := by
  refine ⟨⟨40, solution [(0, 0), (2, 0), (3, 0), (1, 1)], outcome_ok (by decide +kernel), ?_⟩,
    solution [(0, 0), (1, 0), (2, 0), (3, 0)], solvesTable_solves (by decide +kernel) (by decide) (by decide)⟩
  intro h
  obtain ⟨ds, h1, h2⟩ := h 2 (.std (ver 0)) (by simp [solution])
  have e : (problem tableWrong).deps 2 (.std (ver 0)) = some [(1, eq 0)] := rfl
  rw [e] at h1
  simp at h1
  subst h1
  obtain ⟨w, h3, h4⟩ := h2 1 (eq 0) (by simp)
  simp [solution] at h3
  subst h3
  have : specifiers.allows (eq 0) (.std (ver 1)) = false := by decide +kernel
  rw [this] at h4
  simp at h4

/-- C17 is false: the solver calls a problem unsolvable that has a solution. -/
theorem resolution_unsolvable_violated :
    (∃ fuel, solve specifiers (problem tableUnsolvable) choices fuel = .error .unsolvable) ∧
    ∃ sol, Solves specifiers (problem tableUnsolvable) sol :=
  ⟨⟨30, outcome_error (by decide +kernel)⟩,
    solution [(0, 0), (1, 0)], solvesTable_solves (by decide +kernel) (by decide) (by decide)⟩

/-- C59 is false: for problems that have a solution the solver can fail with an `AssertionError` or an
`IndexError`. -/
theorem resolution_fails_violated :
    ((∃ fuel, solve specifiers (problem tableAssertion) choices fuel = .error .assertion) ∧
      ∃ sol, Solves specifiers (problem tableAssertion) sol) ∧
    ((∃ fuel, solve specifiers (problem tableIndex) choices fuel = .error .index) ∧
      ∃ sol, Solves specifiers (problem tableIndex) sol) :=
  ⟨⟨⟨30, outcome_error (by decide +kernel)⟩,
    solution [(0, 0), (1, 0), (2, 0)], solvesTable_solves (by decide +kernel) (by decide) (by decide)⟩,
   ⟨⟨30, outcome_error (by decide +kernel)⟩,
    solution [(0, 0), (1, 0), (2, 0), (3, 0), (4, 0)], solvesTable_solves (by decide +kernel) (by decide) (by decide)⟩⟩

namespace SolverExample

/-- `1.post1` -/
def post1 : SV := { release := [1], post := some 1 }

/-- The root needs 1, which is offered as `1.post1` and `1`, and needs 2 in both; no constraint excludes anything. -/
def postProblem : Problem Nat Ver VSpec where
  root := 0
  versions p := match p with
    | 1 => [.std post1, .std (ver 1)]
    | _ => [.std (ver 1)]
  deps p _ := some (match p with
    | 0 => [(1, .all)]
    | 1 => [(2, .all)]
    | _ => [])
  hasVersion _ _ := false
  strLe p q := p ≤ q

end SolverExample

/-- C59 is false even without a single conflict: if the newest version of a package is a post release, its dependencies are
not taken in and the solver fails with an `IndexError`. -/
theorem resolution_post_violated :
    (∃ fuel, solve specifiers postProblem choices fuel = .error .index) ∧
    Solves specifiers postProblem [(0, .std (ver 1)), (1, .std post1), (2, .std (ver 1))] := by
  refine ⟨⟨30, rfl⟩, by unfold Dict.Wf; decide, ⟨_, rfl, by simp [postProblem]⟩, ?_, ?_⟩
  · intro p v h
    simp only [List.mem_cons, List.not_mem_nil, or_false, Prod.mk.injEq] at h
    left
    rcases h with ⟨rfl, rfl⟩ | ⟨rfl, rfl⟩ | ⟨rfl, rfl⟩ <;> simp [postProblem]
  · intro p v h
    simp only [List.mem_cons, List.not_mem_nil, or_false, Prod.mk.injEq] at h
    rcases h with ⟨rfl, rfl⟩ | ⟨rfl, rfl⟩ | ⟨rfl, rfl⟩
    · refine ⟨_, rfl, fun q c hq => ?_⟩
      simp only [List.mem_cons, List.not_mem_nil, or_false, Prod.mk.injEq] at hq
      obtain ⟨rfl, rfl⟩ := hq
      exact ⟨.std post1, by simp, rfl⟩
    · refine ⟨_, rfl, fun q c hq => ?_⟩
      simp only [List.mem_cons, List.not_mem_nil, or_false, Prod.mk.injEq] at hq
      obtain ⟨rfl, rfl⟩ := hq
      exact ⟨.std (ver 1), by simp, rfl⟩
    · refine ⟨_, rfl, fun q c hq => ?_⟩
      simp at hq

theorem endless_turn (f k : Nat) : turn tableEndless (f + 20) { reached tableEndless 3 with tick := k } 2 =
    .ok ({ reached tableEndless 3 with tick := k + 1 }, some 2) := rfl

theorem endless_turn2 (f k : Nat) : turn tableEndless2 (f + 20) { reached tableEndless2 10 with tick := k } 2 =
    .ok ({ reached tableEndless2 10 with tick := k + 1 }, some 2) := rfl

theorem endless_start (f : Nat) : (start specifiers (problem tableEndless) >>= fun s => turns tableEndless (f + 20) 3 s 0) =
    .ok (reached tableEndless 3, 2) := rfl

theorem endless_start2 (f : Nat) : (start specifiers (problem tableEndless2) >>= fun s => turns tableEndless2 (f + 20) 10 s 0) =
    .ok (reached tableEndless2 10, 2) := rfl

/-- C59 is false: `solve` does not end for a problem that has a solution, nor for one that has none and whose
specifiers all allow some version. -/
theorem resolution_ends_violated :
    ((∀ fuel, 20 ≤ fuel → solve specifiers (problem tableEndless) choices fuel = .error .fuel) ∧
      ∃ sol, Solves specifiers (problem tableEndless) sol) ∧
    ∀ fuel, 20 ≤ fuel → solve specifiers (problem tableEndless2) choices fuel = .error .fuel := by
  have key : ∀ (table : List (List (List (Nat × VSpec)))) (m q : Nat),
      (∀ f, (start specifiers (problem table) >>= fun s => turns table (f + 20) m s 0) = .ok (reached table m, q)) →
      (∀ f k, turn table (f + 20) { reached table m with tick := k } q = .ok ({ reached table m with tick := k + 1 }, some q)) →
      ∀ fuel, 20 ≤ fuel → solve specifiers (problem table) choices fuel = .error .fuel := by
    intro table m q h1 h2 fuel hf
    obtain ⟨f, rfl⟩ : ∃ f, fuel = f + 20 := ⟨fuel - 20, by omega⟩
    obtain ⟨s0, h3, h4⟩ := bind_ok (h1 f)
    unfold solve
    have hl := solveLoop_turns table (f + 20) m (f + 20) s0 _ 0 q h4
      (fun n => solveLoop_endless table (f + 20) q (reached table m) (h2 f) n (reached table m).tick)
    have e : (problem table).root = 0 := rfl
    simp only [bind, Except.bind, h3, e, hl]
  exact ⟨⟨key _ 3 2 endless_start endless_turn,
    solution [(0, 0), (1, 0)], solvesTable_solves (by decide +kernel) (by decide) (by decide)⟩,
    key _ 10 2 endless_start2 endless_turn2⟩

end Pkm
