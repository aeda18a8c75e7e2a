import Verif.Parser
/-
Model of the compatibility tag scoring of wheels:
/repo/pkm/src/pkm/api/environments/environment_introspection.py lines 144-165, 167-173, 183-233, 236-384,
424-476, 515-541 and 571-575 (`env` below), and of the tags taken from a wheel file name in
/repo/pkm/src/pkm/api/distributions/wheel_distribution.py lines 63-70.

Simplifications:
* The JSON facts of the interpreter are a record `Sys`. Reading the ELF header of the interpreter and
  running its loader to learn the musl version are inputs (`elf`, `musl`), not modelled.
* The versions of the interpreter, of glibc, of musl and of macOS are pairs of numbers. (Python slices
  the first two numbers; a one-number version is not modelled.)
* Score components are exact fractions `num / (den + 1)` where Python has floats.
* `int(text)` accepts ASCII digits with blanks around and a leading '+'. (A leading '-' cannot matter: '-'
  is the separator of the tag parts.)
* An exception is the value `error`, its class is not kept: `compatibility_score` catches all of them.
-/
namespace Pkm.Tags

/-- `t!"abc"` is the text `['a', 'b', 'c']`. -/
macro:max "t!" s:str : term => do
  let cs := (s.getString.toList.map Lean.Syntax.mkCharLit).toArray
  `(([$cs,*] : Text))

/-- A score component: the number `num / (den + 1)`. -/
structure Frac where
  num : Nat
  den : Nat
deriving DecidableEq, Repr

/-- A whole number as a score component. -/
def Frac.whole (n : Nat) : Frac := ⟨n, 0⟩

/-- `a < b` of two score components. -/
def Frac.lt (a b : Frac) : Bool := decide (a.num * (b.den + 1) < b.num * (a.den + 1))

/-- `a < b` of two tuples of score components (Python's lexicographic order). -/
def scoreLt : List Frac → List Frac → Bool
  | [], [] => false
  | [], _ :: _ => true
  | _ :: _, [] => false
  | a :: as, b :: bs => if a.lt b then true else if b.lt a then false else scoreLt as bs

/-- `a < b` of two version pairs. -/
def verLt (a b : Nat × Nat) : Bool := decide (a.1 < b.1) || (decide (a.1 = b.1) && decide (a.2 < b.2))

/-- The ELF header facts `have_compatible_abi` looks at (env 503-541). -/
structure Elf where
  is32 : Bool
  little : Bool
  machine : Nat
  flags : Nat
deriving DecidableEq, Repr

/-- The facts known about an interpreter (env 20-95, `self._data`). -/
structure Sys where
  /-- `sys.implementation.name` -/
  implName : Text
  /-- `sys.version_info[:2]` -/
  version : Nat × Nat
  /-- config variable `Py_DEBUG`, if set -/
  pyDebug : Option Bool
  /-- `hasattr(sys, 'gettotalrefcount')` -/
  refcount : Bool
  /-- `"_d.pyd" in EXTENSION_SUFFIXES` -/
  debugExt : Bool
  /-- config variable `WITH_PYMALLOC`, if set -/
  pymalloc : Option Bool
  /-- config variable `Py_UNICODE_SIZE`, if set -/
  unicodeSize : Option Nat
  /-- `sys.maxunicode == 0x10FFFF` -/
  wideUnicode : Bool
  /-- config variable `SOABI`, if set -/
  soabi : Option Text
  /-- `platform.system()` -/
  system : Text
  /-- `sysconfig.get_platform()` -/
  platform : Text
  /-- `sys.maxsize <= 2 ** 32` -/
  is32 : Bool
  /-- `mac_ver` version and cpu architecture -/
  macVersion : Nat × Nat
  macCpu : Text
  /-- the ELF header of the interpreter, if it is an ELF file -/
  elf : Option Elf
  /-- the glibc version (`_glibc_version.release[:2]`, env 192-204), if one was found -/
  glibc : Option (Nat × Nat)
  /-- the musl version (`compute_musl_version`, env 524-534), if one was found -/
  musl : Option (Nat × Nat)

/-- `INTERPRETER_SHORT_NAMES.get(iname, iname)` (env 168-173, 434-437). -/
def shortName (n : Text) : Text :=
  if n = t!"python" then t!"py"
  else if n = t!"cpython" then t!"cp"
  else if n = t!"pypy" then t!"pp"
  else if n = t!"ironpython" then t!"ip"
  else if n = t!"jython" then t!"jy"
  else n

/-- `_normalize_string` (env 475-476). -/
def normalize (t : Text) : Text := t.map (fun c => if c = '.' ∨ c = '-' then '_' else c)

/-- The debug letter of the CPython ABI (env 210-218). -/
def debugBuild (s : Sys) : Bool :=
  match s.pyDebug with
  | some b => b
  | none => s.refcount || s.debugExt

/-- The pymalloc letter (env 219-222). -/
def mallocLetter (s : Sys) : Text :=
  if verLt s.version (3, 8) && s.pymalloc.getD true then ['m'] else []

/-- The wide unicode letter (env 223-228). -/
def unicodeLetter (s : Sys) : Text :=
  if verLt s.version (3, 3) && (match s.unicodeSize with
    | some n => n == 4
    | none => s.wideUnicode) then ['u'] else []

/-- `''.join(str(v) for v in py_version)` (env 208). -/
def verDigits (v : Nat × Nat) : Text := showNat v.1 ++ showNat v.2

/-- `_compute_cpython_abis` (env 206-233). -/
def cpythonAbis (s : Sys) : List Text :=
  let base := t!"cp" ++ verDigits s.version
  let d := if debugBuild s then ['d'] else []
  let first := base ++ d ++ mallocLetter s ++ unicodeLetter s
  if verLt s.version (3, 8) then [first]
  else if debugBuild s then [first, base]
  else [first]

/-- `_compute_generic_abis` (env 183-185). -/
def genericAbis (s : Sys) : List Text :=
  match s.soabi with
  | some t => if t.isEmpty then [] else [normalize t]
  | none => []

/-- `_abi3_applies` (env 471-472). -/
def abi3Applies (v : Nat × Nat) : Bool := !verLt v (3, 2)

/-- `my_abis` before it is reversed: best first (env 251-258). -/
def hostAbis (s : Sys) : List Text :=
  (if shortName s.implName = t!"cp" then
    cpythonAbis s ++ (if abi3Applies s.version then [t!"abi3"] else [])
  else genericAbis s) ++ [t!"none"]

/-- `_mac_arch` (env 424-431). -/
def macArch (arch : Text) (is32 : Bool) : Text :=
  if !is32 then arch
  else if t!"ppc".isPrefixOf arch then t!"ppc"
  else t!"i386"

/-- The formats added for one cpu architecture, or `none` where `[]` is returned (env 440-459). -/
def macExtra (version : Nat × Nat) (arch : Text) : Option (List Text) :=
  if arch = t!"x86_64" then
    if verLt version (10, 4) then none else some [t!"intel", t!"fat64", t!"fat32"]
  else if arch = t!"i386" then
    if verLt version (10, 4) then none else some [t!"intel", t!"fat32", t!"fat"]
  else if arch = t!"ppc64" then
    if verLt (10, 5) version || verLt version (10, 4) then none else some [t!"fat64"]
  else if arch = t!"ppc" then
    if verLt (10, 6) version then none else some [t!"fat32", t!"fat"]
  else some []

/-- `_mac_binary_formats` (env 440-468). -/
def macFormats (version : Nat × Nat) (arch : Text) : List Text :=
  match macExtra version arch with
  | none => []
  | some ex =>
    arch :: ex
      ++ (if arch = t!"arm64" ∨ arch = t!"x86_64" then [t!"universal2"] else [])
      ++ (if arch = t!"x86_64" ∨ arch = t!"i386" ∨ arch = t!"ppc64" ∨ arch = t!"ppc"
            ∨ arch = t!"intel" then [t!"universal"] else [])

/-- `my_plat_supported_binary_formats` before it is reversed (env 263-270). -/
def hostFormats (s : Sys) : List Text :=
  let arch := macArch s.macCpu s.is32
  macFormats s.macVersion arch
    ++ (if 11 ≤ s.macVersion.1 ∧ arch ≠ t!"x86_64" then [t!"universal2"] else [])

/-- `_is_linux_armhf` (env 515-519). -/
def isArmhf (e : Elf) : Bool :=
  (e.is32 && e.little && e.machine == 40) && (e.flags &&& 0xFF000000) == 0x05000000
    && (e.flags &&& 0x00000400) == 0x00000400

/-- `_is_linux_i686` (env 521-522). -/
def isI686 (e : Elf) : Bool := e.is32 && e.little && e.machine == 3

/-- `have_compatible_abi` (env 536-541). -/
def compatibleAbi (e : Elf) (arch : Text) : Bool :=
  if arch = t!"armv7l" then isArmhf e
  else if arch = t!"i686" then isI686 e
  else decide (arch ∈ [t!"x86_64", t!"aarch64", t!"ppc64", t!"ppc64le", t!"s390x"])

/-- `my_linux` (env 285-290). -/
def linuxName (s : Sys) : Text :=
  let p := normalize s.platform
  if s.is32 then
    if p = t!"linux_x86_64" then t!"linux_i686"
    else if p = t!"linux_aarch64" then t!"linux_armv7l"
    else p
  else p

/-- `_, my_arch = my_linux.split("_", 1)` (env 292). -/
def afterUnderscore : Text → Option Text
  | [] => none
  | c :: cs => if c = '_' then some cs else afterUnderscore cs

/-- What the scorer has computed about the platform when it is created. -/
inductive Host where
  | darwin (version : Nat × Nat) (formats : List Text)
  | linux (name arch : Text) (glibc musl : Option (Nat × Nat))
  | other
deriving DecidableEq

/-- The precomputed values the scorer closes over. -/
structure Ctx where
  ipt : Text
  version : Nat × Nat
  /-- worst first -/
  abis : List Text
  platform : Text
  host : Host

/-- glibc and musl versions (env 294-298): `self._glibc_version.release` fails when there is no glibc. -/
def libcs (s : Sys) (arch : Text) : Except Unit (Option (Nat × Nat) × Option (Nat × Nat)) :=
  match s.elf with
  | none => .ok (none, none)
  | some e =>
    if compatibleAbi e arch then
      match s.glibc with
      | none => .error ()
      | some g => .ok (some g, s.musl)
    else .ok (none, none)

/-- The platform part of the precomputation (env 260-298). -/
def mkHost (s : Sys) : Except Unit Host :=
  if s.system = t!"Darwin" then .ok (.darwin s.macVersion (hostFormats s).reverse)
  else if s.system = t!"Linux" then
    match afterUnderscore (linuxName s) with
    | none => .error ()
    | some arch =>
      match libcs s arch with
      | .error e => .error e
      | .ok (g, m) => .ok (.linux (linuxName s) arch g m)
  else .ok .other

/-- Creation of the scorer (env 236-298). -/
def mkCtx (s : Sys) : Except Unit Ctx :=
  match mkHost s with
  | .error e => .error e
  | .ok h => .ok ⟨shortName s.implName, s.version, (hostAbis s).reverse, normalize s.platform, h⟩

/-- `abs(a - b)`. -/
def dist (a b : Nat) : Nat := (a - b) + (b - a)

/-- `vdscore` (env 326-329). -/
def vdscore (v1 v2 : Nat × Nat) : Frac × Frac :=
  if v1.1 = v2.1 then (⟨1, 0⟩, ⟨1, dist v1.2 v2.2⟩) else (⟨1, dist v1.1 v2.1⟩, ⟨0, 0⟩)

/-- `str.strip()` for `int`. -/
def stripBlanks (t : Text) : Text := ((t.dropWhile isSpace).reverse.dropWhile isSpace).reverse

/-- The sign `int` accepts. -/
def dropPlus : Text → Text
  | '+' :: r => r
  | r => r

/-- `int(text)`. -/
def pyInt (t : Text) : Except Unit Nat :=
  let ds := dropPlus (stripBlanks t)
  if isNumeric ds then .ok (PS.toNat ds) else .error ()

/-- `tuple(int(it) for it in parts)`. -/
def ints : List Text → Except Unit (List Nat)
  | [] => .ok []
  | t :: ts =>
    match pyInt t with
    | .error e => .error e
    | .ok n => match ints ts with
      | .error e => .error e
      | .ok ns => .ok (n :: ns)

/-- `index_of_or_none` (utils/sequences.py). -/
def indexOf (l : List Text) (t : Text) : Option Nat :=
  match l with
  | [] => none
  | x :: xs => if x = t then some 0 else (indexOf xs t).map (· + 1)

/-- `text.split(sep, n)`. -/
def splitMax (sep : Char) : Text → Nat → List Text
  | [], _ => [[]]
  | c :: cs, 0 => [c :: cs]
  | c :: cs, n + 1 =>
    if c = sep then [] :: splitMax sep cs n
    else match splitMax sep cs (n + 1) with
      | [] => [[c]]
      | s :: ss => (c :: s) :: ss

abbrev Plt := Frac × Frac × Frac

/-- The version check and score of macOS tags (env 277-282). -/
def macScore (version : Nat × Nat) (formats : List Text) (v : Nat × Nat) (fmt : Text) : Option Plt :=
  if verLt version v then none
  else match indexOf formats fmt with
    | none => none
    | some i => some (.whole (i + 1), vdscore version v)

/-- `darwin_score` (env 272-282): four components or ValueError. -/
def darwinScore (version : Nat × Nat) (formats : List Text) (plt : Text) : Except Unit (Option Plt) :=
  match splitMax '_' plt 3 with
  | f :: r =>
    if f ≠ t!"macosx" then .ok none
    else match r with
      | [a, b, fmt] =>
        match ints [a, b] with
        | .ok [x, y] => .ok (macScore version formats (x, y) fmt)
        | _ => .error ()
      | _ => .error ()
  | [] => .error ()

/-- `_LEGACY_MANYLINUX_MAP.get` (env 571-575). -/
def legacy (t : Text) : Option (Nat × Nat) :=
  if t = t!"manylinux2014" then some (2, 17)
  else if t = t!"manylinux2010" then some (2, 12)
  else if t = t!"manylinux1" then some (2, 5)
  else none

/-- The glibc comparison (env 313-315). -/
def glibcScore (mine v : Nat × Nat) : Option Plt :=
  if verLt mine v then none else some (.whole 1, vdscore v mine)

/-- The glibc version of a manylinux tag (env 311-315): `len(glibc_version) != 2` gives None. -/
def manyScore (mine : Nat × Nat) (noArch : Text) : Except Unit (Option Plt) :=
  match legacy noArch with
  | some v => .ok (glibcScore mine v)
  | none =>
    match ints (((splitOn '_' noArch).drop 1).take 2) with
    | .error e => .error e
    | .ok [x, y] => .ok (glibcScore mine (x, y))
    | .ok _ => .ok none

/-- The musl branch (env 318-322): every part is converted, also the word `musllinux`. -/
def muslScore (mine : Nat × Nat) (noArch : Text) : Except Unit (Option Plt) :=
  match ints (splitOn '_' noArch) with
  | .error e => .error e
  | .ok ns =>
    match (ns.drop 1).take 2 with
    | [x, y] => .ok (if x ≠ mine.1 ∨ mine.2 < y then none else some (.whole 1, vdscore mine (x, y)))
    | _ => .ok none

/-- `linux_score` (env 300-324). -/
def linuxScore (name arch : Text) (glibc musl : Option (Nat × Nat)) (plt : Text) : Except Unit (Option Plt) :=
  let noArch := plt.take (plt.length - (arch.length + 1))
  if plt = name then .ok (some (.whole 1, .whole 0, .whole 0))
  else if !('_' :: arch).isSuffixOf plt then .ok none
  else if t!"manylinux".isPrefixOf noArch then
    match glibc with
    | some g => manyScore g noArch
    | none => .ok none
  else match musl with
    | some m => if t!"musllinux_".isPrefixOf noArch then muslScore m noArch else .ok none
    | none => .ok none

/-- The platform part of the scorer (env 344-357). -/
def pltScore (c : Ctx) (plt : Text) : Except Unit (Option Plt) :=
  if plt = t!"any" then .ok (some (.whole 0, .whole 0, .whole 0))
  else if plt = c.platform then .ok (some (.whole 1, .whole 0, .whole 0))
  else match c.host with
    | .darwin v fs => darwinScore v fs plt
    | .linux n a g m => linuxScore n a g m plt
    | .other => .ok none

/-- `version_rx.fullmatch` with `[\d_]+` (env 246). -/
def versionLike (t : Text) : Bool := !t.isEmpty && t.all (fun c => isDigit c || c == '_')

/-- `ipt.startswith(name) and version_rx.fullmatch(ipt[len(name):])`. -/
def iptFor (name ipt : Text) : Option Text :=
  if name.isPrefixOf ipt && versionLike (ipt.drop name.length) then some (ipt.drop name.length) else none

/-- The interpreter name and its score (env 360-367: `py` first, then the own name). -/
def iptName (c : Ctx) (ipt : Text) : Option (Nat × Text) :=
  match iptFor t!"py" ipt with
  | some v => some (0, v)
  | none => (iptFor c.ipt ipt).map (fun v => (1, v))

/-- The interpreter version of a tag (env 370-375). -/
def iptVersion (minor : Nat) (t : Text) : Except Unit (Nat × Nat) :=
  if t.length = 1 then
    match pyInt t with
    | .ok a => .ok (a, minor)
    | .error e => .error e
  else if '_' ∈ t then
    match ints (splitOn '_' t) with
    | .ok (a :: b :: _) => .ok (a, b)
    | _ => .error ()
  else
    match ints [t.take 1, t.drop 1] with
    | .ok [a, b] => .ok (a, b)
    | _ => .error ()

abbrev Score := List Frac

/-- The last check and the tuple (env 377-382). -/
def finish (c : Ctx) (i : Nat) (p : Plt) (k : Nat) (v : Nat × Nat) : Option Score :=
  if c.version.1 ≠ v.1 ∨ c.version.2 < v.2 then none
  else some [.whole i, p.1, p.2.1, p.2.2, .whole k, (vdscore c.version v).2]

/-- The interpreter part of the scorer (env 360-382). -/
def iptScore (c : Ctx) (i : Nat) (p : Plt) (ipt : Text) : Except Unit (Option Score) :=
  match iptName c ipt with
  | none => .ok none
  | some (k, t) =>
    match iptVersion c.version.2 t with
    | .error e => .error e
    | .ok v => .ok (finish c i p k v)

/-- `scorer` (env 333-382). -/
def score1 (c : Ctx) (ipt abi plt : Text) : Except Unit (Option Score) :=
  match indexOf c.abis abi with
  | none => .ok none
  | some i =>
    match pltScore c plt with
    | .error e => .error e
    | .ok none => .ok none
    | .ok (some p) => iptScore c i p ipt

/-- `score is not None and (max_score is None or max_score < score)` (env 159-160). -/
def keepMax (best s : Option Score) : Option Score :=
  match s with
  | none => best
  | some x => match best with
    | none => some x
    | some b => if scoreLt b x then some x else some b

/-- The loop over the expanded tags (env 155-161). -/
def scan (c : Ctx) : List (Text × Text × Text) → Option Score → Except Unit (Option Score)
  | [], best => .ok best
  | (i, a, p) :: ts, best =>
    match score1 c i a p with
    | .error e => .error e
    | .ok s => scan c ts (keepMax best s)

/-- The three nested loops as one list (env 155-157). -/
def expand (is as ps : List Text) : List (Text × Text × Text) :=
  is.flatMap (fun i => as.flatMap (fun a => ps.map (fun p => (i, a, p))))

/-- `compatibility_score` (env 144-165): every exception gives None. -/
def compatibilityScore (s : Sys) (tag : Text) : Option Score :=
  match splitOn '-' tag with
  | [is, as, ps] =>
    match mkCtx s with
    | .error _ => none
    | .ok c =>
      match scan c (expand (splitOn '.' is) (splitOn '.' as) (splitOn '.' ps)) none with
      | .error _ => none
      | .ok r => r
  | _ => none

/-- `'-'.join(parts)`. -/
def joinDash : List Text → Text
  | [] => []
  | [t] => t
  | t :: ts => t ++ '-' :: joinDash ts

/-- `extract_compatibility_tags_of` (wheel_distribution.py 63-70) on the stem of the file name. -/
def tagsOf (stem : Text) : Text :=
  let parts := splitOn '-' stem
  joinDash (parts.drop (parts.length - 3))

end Pkm.Tags
