import Verif.Text
/-
Model of running other programs (pkm/src/pkm/utils/processes.py 22-43, "ps"; called at environment.py 229, git_repository.py 46-60 and in
conda_distribution.py 99-110).

A turn is a step of the world (the program, or others that have its output open, write; the last of them closes it; the program ends) or one round of
the loop at ps 39-40. Reading and the following `poll` are one step: at the end of the output every later reading gives the same, so that a program
that ends between the two cannot be told from one that ends before both. Output is bytes (no caller asks for text); `decode` is a parameter: what
`bytes.decode` gives for a line, none if it raises. Not modelled: how the program is started, `Popen` that raises, the number of bytes a pipe holds, the
listeners (Monitors).
-/
namespace Pkm
namespace Processes

/-- `str.strip` on ASCII (ps 40). -/
def strip (t : Text) : Text := ((t.dropWhile isSpace).reverse.dropWhile isSpace).reverse

/-- What listeners are told (ps 79-86). -/
inductive Event where
  | line (t : Text)
  | exit (code : Int)
  deriving DecidableEq

inductive Status where
  | running
  /-- ps 43 -/
  | returned (code : Int)
  /-- `UnicodeDecodeError` out of ps 40 -/
  | raised
  deriving DecidableEq

structure State where
  /-- bytes that were written and not read -/
  pipe : List Nat
  /-- somebody can still write -/
  isOpen : Bool
  /-- what `poll` gives -/
  code : Option Int
  events : List Event
  status : Status
  deriving DecidableEq

/-- After `Popen` (ps 26). -/
def start : State := ⟨[], true, none, [], .running⟩

inductive Turn where
  | write (bs : List Nat)
  | close
  | exit (code : Int)
  | read
  deriving DecidableEq

/-- The bytes up to and with the first end of line, and those after it. -/
def cut : List Nat → Option (List Nat × List Nat)
  | [] => none
  | b :: bs => if b = 10 then some ([b], bs) else (cut bs).map (fun (l, r) => (b :: l, r))

/-- `stdout.readline()` (ps 39): waits (none) for the end of a line or of the output. -/
def readline (s : State) : Option (List Nat × List Nat) :=
  match cut s.pipe with
  | some r => some r
  | none => if s.isOpen then none else some (s.pipe, [])

/-- A round of the loop (ps 39-43). -/
def round (decode : List Nat → Option Text) (s : State) : State :=
  match readline s with
  | none => s
  | some ([], rest) =>
    match s.code with
    | none => { s with pipe := rest, events := s.events ++ [.line []] }
    | some c => { s with pipe := rest, events := s.events ++ [.exit c], status := .returned c }
  | some (b :: l, rest) =>
    match decode (b :: l) with
    | none => { s with pipe := rest, status := .raised }
    | some t => { s with pipe := rest, events := s.events ++ [.line (strip t)] }

def turn (decode : List Nat → Option Text) (s : State) : Turn → State
  | .write bs => if s.isOpen then { s with pipe := s.pipe ++ bs } else s
  | .close => { s with isOpen := false }
  | .exit c => match s.code with
    | none => { s with code := some c }
    | some _ => s
  | .read => match s.status with
    | .running => round decode s
    | _ => s

def run (decode : List Nat → Option Text) (s : State) (ts : List Turn) : State := ts.foldl (turn decode) s

end Processes
end Pkm
