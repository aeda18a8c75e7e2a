import Verif.Tags.Model
/-
Specification vocabulary of C52 (PEP 425 compatibility tags, PEP 600 manylinux, PEP 656 musllinux): tags
as data with their text, and which of them an interpreter supports. Nothing here refers to the scorer.
-/
namespace Pkm.Tags

/-- The linux architectures manylinux tags exist for. -/
inductive Arch where
  | x86_64 | i686 | aarch64 | armv7l | ppc64 | ppc64le | s390x
deriving DecidableEq

def Arch.text : Arch → Text
  | .x86_64 => t!"x86_64"
  | .i686 => t!"i686"
  | .aarch64 => t!"aarch64"
  | .armv7l => t!"armv7l"
  | .ppc64 => t!"ppc64"
  | .ppc64le => t!"ppc64le"
  | .s390x => t!"s390x"

/-- A platform tag. -/
inductive Plat where
  | any
  | linux (a : Arch)
  | manylinux (major minor : Nat) (a : Arch)
  | manylinux1 (a : Arch)
  | manylinux2010 (a : Arch)
  | manylinux2014 (a : Arch)
  | musllinux (major minor : Nat) (a : Arch)
  | macosx (major minor : Nat) (format : Text)
  /-- any other platform, for example `win_amd64` -/
  | named (t : Text)
deriving DecidableEq

def Plat.text : Plat → Text
  | .any => t!"any"
  | .linux a => t!"linux_" ++ a.text
  | .manylinux x y a => t!"manylinux_" ++ showNat x ++ '_' :: (showNat y ++ '_' :: a.text)
  | .manylinux1 a => t!"manylinux1_" ++ a.text
  | .manylinux2010 a => t!"manylinux2010_" ++ a.text
  | .manylinux2014 a => t!"manylinux2014_" ++ a.text
  | .musllinux x y a => t!"musllinux_" ++ showNat x ++ '_' :: (showNat y ++ '_' :: a.text)
  | .macosx x y f => t!"macosx_" ++ showNat x ++ '_' :: (showNat y ++ '_' :: f)
  | .named t => t

/-- The version of an interpreter tag: `3`, `310` or `3_10`. -/
inductive PyVer where
  | major (a : Nat)
  | glued (a b : Nat)
  | under (a b : Nat)
deriving DecidableEq

def PyVer.text : PyVer → Text
  | .major a => showNat a
  | .glued a b => showNat a ++ showNat b
  | .under a b => showNat a ++ '_' :: showNat b

/-- An interpreter tag: `py3`, `cp310`, `pp3_10`. -/
structure Interp where
  name : Text
  ver : PyVer
deriving DecidableEq

def Interp.text (i : Interp) : Text := i.name ++ i.ver.text

def joinDots : List Text → Text
  | [] => []
  | [t] => t
  | t :: ts => t ++ '.' :: joinDots ts

/-- A compressed tag set: `py2.py3-none-any`. -/
structure TagSet where
  interps : List Interp
  abis : List Text
  plats : List Plat

def TagSet.text (t : TagSet) : Text :=
  joinDots (t.interps.map Interp.text) ++ '-' :: (joinDots t.abis ++ '-' :: joinDots (t.plats.map Plat.text))

/-- The set with a single tag. -/
def single (i : Interp) (a : Text) (p : Plat) : TagSet := ⟨[i], [a], [p]⟩

/-- No separator of tags occurs in the text. -/
def Plain (t : Text) : Prop := '-' ∉ t ∧ '.' ∉ t

/-- Lower-case letters only. -/
def Letters (t : Text) : Prop := t ≠ [] ∧ ∀ c ∈ t, isLower c = true

def PyVer.Ok : PyVer → Prop
  | .major a => a < 10
  | .glued a _ => a < 10
  | .under _ _ => True

/-- An "other" platform name is none of the structured ones. -/
def Plat.Ok : Plat → Prop
  | .macosx _ _ f => Plain f
  | .named t => Plain t ∧ t ≠ t!"any" ∧ ¬ t!"manylinux" <+: t ∧ ¬ t!"macosx" <+: t
  | _ => True

/-- Tag sets as wheel builders write them. -/
structure TagSet.Ok (t : TagSet) : Prop where
  interps : t.interps ≠ [] ∧ ∀ i ∈ t.interps, Letters i.name ∧ i.ver.Ok
  abis : t.abis ≠ [] ∧ ∀ a ∈ t.abis, Plain a
  plats : t.plats ≠ [] ∧ ∀ p ∈ t.plats, p.Ok

/-! What an interpreter supports. -/

/-- `a` is not newer than `b`. -/
def NotNewer (a b : Nat × Nat) : Prop := a.1 < b.1 ∨ (a.1 = b.1 ∧ a.2 ≤ b.2)

/-- A debug build: the build variable says so, or it is not set and the interpreter shows it. -/
def IsDebug (s : Sys) : Prop := s.pyDebug = some true ∨ (s.pyDebug = none ∧ (s.refcount = true ∨ s.debugExt = true))

/-- The ABI a CPython interpreter was built for: `cp310`, `cp37m`, `cp27mu`, `cp310d`. -/
def NativeAbi (s : Sys) (abi : Text) : Prop :=
  ∃ d m u : Text,
    abi = t!"cp" ++ showNat s.version.1 ++ showNat s.version.2 ++ d ++ m ++ u ∧
    ((IsDebug s ∧ d = ['d']) ∨ (¬ IsDebug s ∧ d = [])) ∧
    ((¬ NotNewer (3, 8) s.version ∧ s.pymalloc ≠ some false ∧ m = ['m'])
      ∨ ((NotNewer (3, 8) s.version ∨ s.pymalloc = some false) ∧ m = [])) ∧
    ((¬ NotNewer (3, 3) s.version ∧ (s.unicodeSize = some 4 ∨ (s.unicodeSize = none ∧ s.wideUnicode = true))
        ∧ u = ['u'])
      ∨ ((NotNewer (3, 3) s.version ∨ ¬ (s.unicodeSize = some 4 ∨ (s.unicodeSize = none ∧ s.wideUnicode = true)))
        ∧ u = []))

/-- The implementation is CPython. -/
def IsCPython (s : Sys) : Prop := s.implName = t!"cpython" ∨ s.implName = t!"cp"

/-- How well an ABI fits: 0 the "none" ABI, 1 the stable ABI, 2 the release ABI on a debug build, 3 the
interpreter's own ABI. -/
def AbiFits (s : Sys) (abi : Text) : Nat → Prop
  | 0 => abi = t!"none"
  | 1 => IsCPython s ∧ NotNewer (3, 2) s.version ∧ abi = t!"abi3"
  | 2 => IsCPython s ∧ NotNewer (3, 8) s.version ∧ IsDebug s ∧
      abi = t!"cp" ++ showNat s.version.1 ++ showNat s.version.2
  | 3 => (IsCPython s ∧ NativeAbi s abi) ∨
      (¬ IsCPython s ∧ ∃ so, s.soabi = some so ∧ so ≠ [] ∧ abi = normalize so)
  | _ => False

/-- The interpreter can load extensions of this ABI. -/
def SupportsAbi (s : Sys) (abi : Text) : Prop := ∃ n, AbiFits s abi n

/-- A linux interpreter whose platform is that of its own architecture. -/
def OnLinux (s : Sys) (a : Arch) : Prop :=
  s.system = t!"Linux" ∧ normalize s.platform = t!"linux_" ++ a.text ∧
    (s.is32 = true → a ≠ .x86_64 ∧ a ≠ .aarch64)

/-- The interpreter binary follows the ABI the manylinux tags of this architecture stand for. -/
def ElfFits (e : Elf) : Arch → Prop
  | .armv7l => e.is32 = true ∧ e.little = true ∧ e.machine = 40 ∧ (e.flags &&& 0xFF000000) = 0x05000000
      ∧ (e.flags &&& 0x400) = 0x400
  | .i686 => e.is32 = true ∧ e.little = true ∧ e.machine = 3
  | _ => True

/-- The interpreter runs on a glibc at least as new as `v`. -/
def Glibc (s : Sys) (a : Arch) (v : Nat × Nat) : Prop :=
  ∃ e g, s.elf = some e ∧ ElfFits e a ∧ s.glibc = some g ∧ NotNewer v g

/-- The architecture a Mac interpreter runs as. -/
def MacCpu (s : Sys) (cpu : Text) : Prop :=
  (s.is32 = false ∧ cpu = s.macCpu) ∨
  (s.is32 = true ∧ t!"ppc" <+: s.macCpu ∧ cpu = t!"ppc") ∨
  (s.is32 = true ∧ ¬ t!"ppc" <+: s.macCpu ∧ cpu = t!"i386")

/-- The macOS versions an architecture exists on (others: not restricted). -/
def CpuExists (v : Nat × Nat) (cpu : Text) : Prop :=
  (cpu = t!"x86_64" ∨ cpu = t!"i386" → NotNewer (10, 4) v) ∧
  (cpu = t!"ppc64" → NotNewer (10, 4) v ∧ NotNewer v (10, 5)) ∧
  (cpu = t!"ppc" → NotNewer v (10, 6))

/-- The formats with code for an architecture. -/
def Contains (f cpu : Text) : Prop :=
  f = cpu ∨
  (f = t!"intel" ∧ cpu ∈ [t!"x86_64", t!"i386"]) ∨
  (f = t!"fat64" ∧ cpu ∈ [t!"x86_64", t!"ppc64"]) ∨
  (f = t!"fat32" ∧ cpu ∈ [t!"x86_64", t!"i386", t!"ppc"]) ∨
  (f = t!"fat" ∧ cpu ∈ [t!"i386", t!"ppc"]) ∨
  (f = t!"universal2" ∧ cpu ∈ [t!"arm64", t!"x86_64"]) ∨
  (f = t!"universal" ∧ cpu ∈ [t!"x86_64", t!"i386", t!"ppc64", t!"ppc", t!"intel"])

/-- The binary formats a Mac runs; since macOS 11 every Mac runs `universal2`. -/
def MacRuns (s : Sys) (f : Text) : Prop :=
  ∃ cpu, MacCpu s cpu ∧
    ((CpuExists s.macVersion cpu ∧ Contains f cpu) ∨ (11 ≤ s.macVersion.1 ∧ f = t!"universal2"))

/-- Files for this platform run on the interpreter. -/
def SupportsPlat (s : Sys) : Plat → Prop
  | .any => True
  | .linux a => OnLinux s a
  | .manylinux x y a => OnLinux s a ∧ Glibc s a (x, y)
  | .manylinux1 a => OnLinux s a ∧ Glibc s a (2, 5)
  | .manylinux2010 a => OnLinux s a ∧ Glibc s a (2, 12)
  | .manylinux2014 a => OnLinux s a ∧ Glibc s a (2, 17)
  | .musllinux x y a => OnLinux s a ∧ ∃ m, s.musl = some m ∧ m.1 = x ∧ y ≤ m.2
  | .macosx x y f =>
      (Plat.macosx x y f).text = normalize s.platform ∨
      (s.system = t!"Darwin" ∧ NotNewer (x, y) s.macVersion ∧ MacRuns s f)
  | .named t => t = normalize s.platform

/-- Code written for this version runs on the interpreter. -/
def PyVer.Fits (v : Nat × Nat) : PyVer → Prop
  | .major a => a = v.1
  | .glued a b => a = v.1 ∧ b ≤ v.2
  | .under a b => a = v.1 ∧ b ≤ v.2

/-- Code written for this interpreter runs on the interpreter. -/
def SupportsInterp (s : Sys) (i : Interp) : Prop :=
  (i.name = t!"py" ∨ i.name = shortName s.implName) ∧ i.ver.Fits s.version

/-- A single tag is supported. -/
def Supports (s : Sys) (i : Interp) (a : Text) (p : Plat) : Prop :=
  SupportsInterp s i ∧ SupportsAbi s a ∧ SupportsPlat s p

/-- Interpreters covered: on linux it is a glibc system of a known architecture whose platform text is
that of the interpreter; the name of the implementation is letters. (What goes wrong on the others is in
the `_violated` theorems.) -/
structure Regular (s : Sys) : Prop where
  name : Letters (shortName s.implName)
  linux : s.system = t!"Linux" → (∃ a, OnLinux s a) ∧ (∃ g, s.glibc = some g) ∧ s.musl = none
  platform : s.system ≠ t!"Linux" →
    (∀ a : Arch, normalize s.platform ≠ t!"linux_" ++ a.text) ∧ ¬ t!"manylinux" <+: normalize s.platform
      ∧ ¬ t!"musllinux" <+: normalize s.platform

end Pkm.Tags
