import Verif.Text
/-
Model of the execution of a command with its parents: `Command.execute` of
pkm-cli/src/pkm_cli/api/dynamic_cli/command_parser.py ("cp" 64-77).

The function of a command is a piece of code, or, if it contains `yield`, a list of pieces of code of which each ends at
a `yield`. What a piece does is a list of events. That an unfinished generator is closed when it is collected is left
out.
-/
namespace Pkm.Exec
variable {E : Type}

/-- A piece of code: what it does, and whether it ends in an exception. -/
structure Part (E : Type) where
  events : List E
  raises : Bool := false
  deriving Repr, DecidableEq

/-- The function of a command: none (no `command_def`, or a dynamic one), an ordinary one, or a generator. -/
inductive Body (E : Type) where
  | absent
  | plain (p : Part E)
  | gen (parts : List (Part E))
  deriving Repr, DecidableEq

/-- How `execute` ends: it returns no generator, or a generator that has these parts left, or raises. -/
inductive Ret (E : Type) where
  | nothing
  | gen (parts : List (Part E))
  | raised
  deriving Repr, DecidableEq

structure Run (E : Type) where
  events : List E
  ret : Ret E
  deriving Repr, DecidableEq

/-- `cmd_def.execution(self)`, or `None` (cp 72-74): calling a generator function runs none of it. -/
def own : Body E → Run E
  | .absent => ⟨[], .nothing⟩
  | .plain p => ⟨p.events, if p.raises then .raised else .nothing⟩
  | .gen parts => ⟨[], .gen parts⟩

/-- `next(generator, None)`: what it does, whether it raises, what is left of the generator. -/
def next : List (Part E) → List E × Bool × List (Part E)
  | [] => ([], false, [])
  | p :: ps => (p.events, p.raises, if p.raises then [] else ps)

/-- `Command.execute` (cp 64-77) of a command given by its own function, that of its parent, and so on. -/
def execute : List (Body E) → Run E
  | [] => ⟨[], .nothing⟩
  | b :: above =>
    let up := execute above
    match up.ret with
    | .raised => ⟨up.events, .raised⟩
    | .nothing => ⟨up.events ++ (own b).events, (own b).ret⟩
    | .gen parts => match next parts with
      | (ev, true, _) => ⟨up.events ++ ev, .raised⟩
      | (ev, false, rest) => match next rest with
        | (ev', failed, _) => ⟨up.events ++ ev ++ (own b).events ++ ev', if failed then .raised else (own b).ret⟩

end Pkm.Exec
