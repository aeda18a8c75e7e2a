import Verif.Text
/-
Model of `Environment.activate` (environment.py 172-196, cited "en"), `Environment.run_proc`
(en 213-232) and `EnvironmentsZoo.activate` (environments_zoo.py 63-77, cited "ez").

Variables are a map from names to values; `os.pathsep` is `:`. The bodies of `with` blocks are programs
that set and delete variables, raise, activate again.
-/
namespace Pkm.Act

/-- Environment variables: `env.get(k)`. -/
abbrev Vars := Text → Option Text

def PATH : Text := "PATH".toList
def VENV : Text := "VIRTUAL_ENV".toList

def Vars.set (v : Vars) (k t : Text) : Vars := fun x => if x = k then some t else v x
def Vars.del (v : Vars) (k : Text) : Vars := fun x => if x = k then none else v x

/-- How a block ends. -/
inductive Out where
  | ok
  | raised
  | keyError
  deriving DecidableEq, Repr

/-- `f"{scripts}{os.pathsep}{old_path}"` if the old value is not empty (en 175-177, ez 66-67). -/
def newPath (dir : Text) : Option Text → Text
  | none => dir
  | some [] => dir
  | some (c :: cs) => dir ++ (':' :: c :: cs)

/-- `if old is not None: env[k] = old else: del env[k]` (en 187-190, 192-195): the new variables, or the
`KeyError` of `del`. -/
def restore (k : Text) (old : Option Text) (v : Vars) : Except Unit Vars :=
  match old with
  | some t => .ok (v.set k t)
  | none => match v k with
    | some _ => .ok (v.del k)
    | none => .error ()

/-- The `finally` block (en 186-195); an exception in it replaces that of the body. -/
def leave (oldPath oldVenv : Option Text) (v : Vars) (o : Out) : Vars × Out :=
  match restore PATH oldPath v with
  | .error _ => (v, .keyError)
  | .ok v' => match restore VENV oldVenv v' with
    | .error _ => (v', .keyError)
    | .ok v'' => (v'', o)

/-- The variables inside the block (en 174-183). -/
def enter (scripts path : Text) (v : Vars) : Vars :=
  (v.set PATH (newPath scripts (v PATH))).set VENV path

/-- `with env.activate(vars): body` (en 172-196). -/
def activate (scripts path : Text) (body : Vars → Vars × Out) (v : Vars) : Vars × Out :=
  match body (enter scripts path v) with
  | (v', o) => leave (v PATH) (v VENV) v' o

/-- The `finally` block of the zoo (ez 72-77): an empty previous value is not restored but deleted. -/
def zooLeave (old : Option Text) (v : Vars) (o : Out) : Vars × Out :=
  match restore PATH (old.bind (fun t => if t.isEmpty then none else some t)) v with
  | .error _ => (v, .keyError)
  | .ok v' => (v', o)

/-- `with zoo.activate(vars): body` (ez 62-77). -/
def zooActivate (bin : Text) (body : Vars → Vars × Out) (v : Vars) : Vars × Out :=
  match body (v.set PATH (newPath bin (v PATH))) with
  | (v', o) => zooLeave (v PATH) v' o

/-- Programs in the `with` blocks. -/
inductive Prog where
  | skip
  | set (k t : Text)
  | del (k : Text)
  | raise
  | seq (a b : Prog)
  | activate (scripts path : Text) (body : Prog)
  | zoo (bin : Text) (body : Prog)

/-- Running a program. -/
def Prog.run : Prog → Vars → Vars × Out
  | .skip, v => (v, .ok)
  | .set k t, v => (v.set k t, .ok)
  | .del k, v => match v k with
    | none => (v, .keyError)
    | some _ => (v.del k, .ok)
  | .raise, v => (v, .raised)
  | .seq a b, v => match a.run v with
    | (v', .ok) => b.run v'
    | (v', o) => (v', o)
  | .activate s p b, v => Act.activate s p b.run v
  | .zoo d b, v => zooActivate d b.run v

/-- The variables `run_proc` gives to the process (en 224-232): those passed, or those of this process
if none (or an empty dictionary) were passed. The process cannot change them, so leaving restores a
copy. -/
def procVars (scripts path : Text) (passed : Option (List (Text × Text))) (osEnv : Vars) : Vars :=
  match passed with
  | none => enter scripts path osEnv
  | some [] => enter scripts path osEnv
  | some l => enter scripts path (fun k => (l.find? (fun e => e.1 == k)).map (·.2))

end Pkm.Act
