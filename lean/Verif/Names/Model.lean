import Verif.Text
/-
Model of the package name functions of pkm/src/pkm/api/packages/package.py.

Simplification: the character classes of the regular expression are ASCII (in Python `\d` and `[A-Z]`
with IGNORECASE also accept a few other Unicode characters).
-/
namespace Pkm

/-- The characters that `normalize_name` keeps: `[A-Z\d._]`, ignoring case (package.py 95). -/
def nameChar (c : Char) : Bool := isAlnum c || c == '.' || c == '_'

/-- `re.sub("[^A-Z\\d._]+", '-', s, flags=re.IGNORECASE)` (package.py 95); the flag says whether the
previous character belongs to the run that has already been replaced. -/
def subDash : Bool → Text → Text
  | _, [] => []
  | run, c :: cs =>
    if nameChar c then c :: subDash false cs
    else if run then subDash true cs
    else '-' :: subDash true cs

/-- `s.strip(c)` for one character. -/
def stripChar (c : Char) (s : Text) : Text :=
  ((s.dropWhile (· == c)).reverse.dropWhile (· == c)).reverse

/-- `PackageDescriptor.normalize_name` (package.py 78-97); `none` is the `ValueError`. -/
def normalizeName (s : Text) : Option Text :=
  let r := stripChar '-' (subDash false s)
  if r.isEmpty then none else some r

/-- `s.replace(a, b)` for single characters. -/
def replaceChar (a b : Char) (s : Text) : Text := s.map (fun c => if c = a then b else c)

/-- The name a `PackageDescriptor` stores (`__post_init__`, package.py 41-44); `none` is an exception
(the assertion for the empty name, or the `ValueError`). -/
def descriptorName (s : Text) : Option Text :=
  if s.isEmpty then none else (normalizeName s).map (replaceChar '_' '-')

/-- `normalize_src_package_name` (package.py 74-76). -/
def srcPackageName (s : Text) : Option Text :=
  (normalizeName s).map (List.map (fun c => if c = '-' then '_' else if c = '.' then '_' else c))

/-- `package_name_key` (package.py 70-72). -/
def packageNameKey (s : Text) : Option Text := (srcPackageName s).map lower

end Pkm
