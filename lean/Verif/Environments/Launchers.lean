import Verif.Tags.Model
/-
Model of pkm/src/pkm/launchers/executables.py ("ex") and pkm/src/pkm/launchers/__init__.py ("la"): the
scripts and launchers that an installation makes. Files are sequences of characters, one for each byte.
-/
namespace Pkm
namespace Launch
open Tags

/-- `readline`: the text up to the first newline and with it, and the rest. -/
def readLine : Text → Text × Text
  | [] => ([], [])
  | c :: t => if c = '\n' then (['\n'], t) else (c :: (readLine t).1, (readLine t).2)

/-- `Executables.patch_shabang_for_interpreter` (ex 25-34): the content of the new script. -/
def patch (interp linesep source : Text) : Text :=
  let first := (readLine source).1
  let rest := (readLine source).2
  if (t!"#!python").isPrefixOf first then
    let w : Text := if (t!"#!pythonw").isPrefixOf first then ['w'] else []
    t!"#!" ++ interp ++ w ++ linesep ++ rest
  else first ++ rest

/-- The mode of a new script (ex 36-37, 59-60); `S_IEXEC` is 64. -/
def execMode (mode : Nat) : Nat := mode ||| 64

/-- The platform of an environment as far as it matters here (pkm/src/pkm/api/environments/environment.py
129-141, 355-368): `platform_system` and `platform_machine` in lower case, and the bits of the system. -/
structure Platform where
  os : Text
  machine : Text
  bits : Nat

/-- `operating_platform` (environment.py 133-141). -/
def platformOf (system machine : Text) (bits : Nat) : Platform := ⟨lower system, lower machine, bits⟩

/-- `has_windows_os` (environment.py 361-362). -/
def hasWindows (p : Platform) : Bool := p.os == t!"Windows"

/-- `has_arm_cpu` (environment.py 367-368). -/
def hasArm (p : Platform) : Bool := hasSub t!"armv71" p.machine || hasSub t!"aarch64" p.machine
where
  /-- `sub in text` -/
  hasSub (sub : Text) : Text → Bool
    | [] => sub.isEmpty
    | c :: t => sub.isPrefixOf (c :: t) || hasSub sub t

/-- The files of launchers that come with pkm (directory pkm/src/pkm/launchers). -/
def shipped : List Text := [t!"t32.exe", t!"t64.exe", t!"t64-arm.exe", t!"w32.exe", t!"w64.exe", t!"w64-arm.exe"]

/-- `launcher_name` (la 33-35). -/
def launcherName (p : Platform) (isGui : Bool) : Text :=
  (if isGui then ['t'] else ['w']) ++ (if hasArm p then t!"-arm" else []) ++ (toString p.bits).toList ++ t!".exe"

/-- What makes a launcher fail. -/
inductive LaunchErr where
  /-- no such resource -/
  | missing
  /-- `ZipFile` opens a file for reading that is no archive -/
  | badZip
deriving DecidableEq

/-- `build_windows_script_launcher` (la 16-46): the name and content of the file that is left, and the
outcome. `ZipFile(result_fd)` is opened in its default mode, for reading, on a file that has no archive. -/
def windowsLauncher (data : Text → Text) (p : Platform) (interp file : Text) (isGui : Bool) :
    Option (Text × Text) × Except LaunchErr Text :=
  if launcherName p isGui ∈ shipped then
    (some (file ++ t!".exe", data (launcherName p isGui) ++ t!"#!" ++ interp ++ ['\r', '\n']), .error .badZip)
  else (none, .error .missing)

/-- `Executables.generate` (ex 40-61): the name and content of the file, and the outcome. -/
def generate (data : Text → Text) (p : Platform) (interp file script : Text) (isGui : Bool) :
    Option (Text × Text) × Except LaunchErr Text :=
  if hasWindows p then windowsLauncher data p interp file isGui
  else (some (file, t!"#!" ++ interp ++ ['\n'] ++ script), .ok file)

/-- The groups of entry points that are scripts. -/
inductive Group where
  | console | gui
deriving DecidableEq

/-- `execution_script_snippet` (pkm/src/pkm/utils/entrypoints.py 43-49), for a reference with an object. -/
def snippet (module object : Text) : Text :=
  t!"import sys;import " ++ module ++ t!";sys.exit(" ++ module ++ ['.'] ++ object ++ t!"())"

/-- `Executables.generate_for_entrypoint` (ex 64-75). -/
def generateFor (data : Text → Text) (p : Platform) (interp file module object : Text) (g : Group) :
    Option (Text × Text) × Except LaunchErr Text :=
  generate data p interp file (snippet module object) (g == .console)

end Launch
end Pkm
