import Verif.Cli.Execution
set_option linter.unusedVariables false
set_option linter.unusedSimpArgs false
/-
Theorems about the execution of commands (C86).
-/
namespace Pkm
open Exec

namespace Spec

/-- Doing one piece of code after the other, up to the first that fails. -/
inductive DoneInOrder {E : Type} : List (Part E) → List E → Bool → Prop where
  | done : DoneInOrder [] [] false
  | failed {p ps} : p.raises = true → DoneInOrder (p :: ps) p.events true
  | step {p ps ev r} : p.raises = false → DoneInOrder ps ev r → DoneInOrder (p :: ps) (p.events ++ ev) r

end Spec
open Spec

namespace Exec
variable {E : Type}

theorem done_snoc {q : Part E} : ∀ {ps : List (Part E)} {ev : List E}, DoneInOrder ps ev false →
    DoneInOrder (ps ++ [q]) (ev ++ q.events) q.raises
  | [], _, .done => by
    cases h : q.raises
    · simpa using (DoneInOrder.step (ps := []) h .done)
    · simpa using (DoneInOrder.failed (ps := []) h)
  | p :: ps, _, .step hp h => by
    have := DoneInOrder.step hp (done_snoc (q := q) h)
    simpa using this

theorem done_more {qs : List (Part E)} : ∀ {ps : List (Part E)} {ev : List E}, DoneInOrder ps ev true →
    DoneInOrder (ps ++ qs) ev true
  | p :: ps, _, .failed h => .failed h
  | p :: ps, _, .step hp h => .step hp (done_more h)

end Exec

/-- The functions of commands that are not generators run from the first word to the last, up to the first that fails;
a command fails if and only if one of them does. `chain` is from the root to the command. -/
theorem execute_in_order {E : Type} (chain : List (Option (Part E))) :
    ∃ ev r, DoneInOrder (chain.filterMap id) ev r ∧
      execute ((chain.map (fun | some p => Body.plain p | none => .absent)).reverse)
        = ⟨ev, if r then .raised else .nothing⟩ := by
  have key : ∀ l : List (Option (Part E)),
      ∃ ev r, DoneInOrder (l.reverse.filterMap id) ev r ∧
        execute (l.map (fun | some p => Body.plain p | none => .absent)) = ⟨ev, if r then .raised else .nothing⟩ := by
    intro l
    induction l with
    | nil => exact ⟨[], false, .done, rfl⟩
    | cons o l ih =>
      obtain ⟨ev, r, hd, he⟩ := ih
      cases r with
      | true =>
        refine ⟨ev, true, ?_, ?_⟩
        · rw [List.reverse_cons, List.filterMap_append]
          exact done_more hd
        · simp [execute, he]
      | false =>
        cases o with
        | none =>
          refine ⟨ev, false, by simpa using hd, ?_⟩
          simp [execute, he, own]
        | some p =>
          refine ⟨ev ++ p.events, p.raises, ?_, ?_⟩
          · simpa using done_snoc (q := p) hd
          · simp [execute, he, own]
  obtain ⟨ev, r, hd, he⟩ := key chain.reverse
  refine ⟨ev, r, by simpa using hd, ?_⟩
  rw [← he, List.map_reverse]

example : execute ([some ⟨[1], false⟩, none, some ⟨[2], true⟩, some (⟨[3], false⟩ : Part Nat)].map
    (fun | some p => Body.plain p | none => .absent)).reverse = ⟨[1, 2], .raised⟩ := by decide

/-- What a parent does before its `yield` is done before the command, and what it does after it is done after the
command, whether the command fails or not. The command fails if it does itself or if the second part of the parent does. -/
theorem parent_surrounds {E : Type} (command : Option (Part E)) (before after : Part E) (above : List (Body E))
    (root : List E) (hu : execute above = ⟨root, .nothing⟩) (hb : before.raises = false) :
    execute ((match command with | some p => Body.plain p | none => .absent) :: .gen [before, after] :: above)
      = ⟨root ++ before.events ++ (match command with | some p => p.events | none => []) ++ after.events,
          if after.raises || (match command with | some p => p.raises | none => false) then .raised else .nothing⟩ := by
  cases command with
  | none => simp [execute, hu, own, next, hb]
  | some p =>
    obtain ⟨aev, ar⟩ := after
    obtain ⟨pev, pr⟩ := p
    cases ar <;> cases pr <;> simp [execute, hu, own, next, hb]

/-- `pkm install` with its parent and the root. -/
example : execute [.plain ⟨[2], true⟩, .gen [⟨[1], false⟩, ⟨[3], false⟩], (.absent : Body Nat)] = ⟨[1, 2, 3], .raised⟩ := by
  decide

/-- A parent that fails before its `yield`: the command does not run. -/
theorem parent_fails {E : Type} (command : Body E) (before : Part E) (rest : List (Part E)) (above : List (Body E))
    (root : List E) (hu : execute above = ⟨root, .nothing⟩) (hb : before.raises = true) :
    execute (command :: .gen (before :: rest) :: above) = ⟨root ++ before.events, .raised⟩ := by
  simp [execute, hu, own, next, hb]

example : execute [.plain ⟨[2], false⟩, .gen [⟨[1], true⟩, ⟨[3], false⟩], (.absent : Body Nat)] = ⟨[1], .raised⟩ := by decide

/-- The claim "what a command does before and after its `yield` surrounds the commands below it" fails two words below:
for every command with a word between, the second part of the parent of its parent is over before the command starts. -/
theorem grandparent_surrounds_violated {E : Type} (command middle before after : Part E) (above : List (Body E))
    (root : List E) (hu : execute above = ⟨root, .nothing⟩) (hb : before.raises = false) (hm : middle.raises = false)
    (ha : after.raises = false) :
    execute (.plain command :: .plain middle :: .gen [before, after] :: above)
      = ⟨root ++ before.events ++ middle.events ++ after.events ++ command.events,
          if command.raises then .raised else .nothing⟩ := by
  simp [execute, hu, own, next, hb, hm, ha]

/-- The claim "the function of a command runs" fails for a command whose function is a generator and that has no word
after it, such as `pkm -v`: no part of it runs. -/
theorem generator_runs_violated {E : Type} (parts : List (Part E)) (above : List (Body E)) (root : List E)
    (hu : execute above = ⟨root, .nothing⟩) : (execute (.gen parts :: above)).events = root := by
  simp [execute, hu, own]

end Pkm
