import Verif.Specifier.Model
import Verif.Tags.Model
import Verif.Sort
/-
Model of the repository for torch:
/repo/repositories/download-torch-pkm-repo/src/download_torch_pkm_repo/torch_repository.py (`tr` below) and
cuda_compatibility.py (`cc`).

Simplifications:
* The packages that the index (`SimpleRepository`, C37) gives are a list with their versions.
* `packages.sort(key=.., reverse=True)` is a stable insertion sort; the two agree where the order of the keys is a strict
  weak order, which is proved for the keys that occur (`torch_order`).
* Whether a module can be imported, and what `nvidia-smi` says, are parameters.
-/
namespace Pkm.Torch
open Tags

variable {P : Type}

inductive TErr where
  /-- `AttributeError`: no `local_label` -/
  | attribute
  /-- `ValueError` of `int` -/
  | value
  /-- `ModuleNotFoundError` -/
  | noModule
  /-- `FileNotFoundError` or `CalledProcessError`: no `nvidia-smi` -/
  | noDriver
  deriving DecidableEq, Repr

/-- `f"cu{''.join(str(r) for r in v.release)}"` (tr 21-24). -/
def cudaLabel (v : SV) : Text := t!"cu" ++ (v.release.map showNat).flatten

/-- `not ll or ll == 'cpu'` (tr 34, 49). -/
def isCpu (ll : Option Text) : Bool := ll == some t!"cpu" || (ll.getD []).isEmpty

/-- One round of the loop (tr 32-39): is the package kept. -/
def keep (cudas : List SV) (allowCpu : Bool) (v : SV) : Bool :=
  if isCpu v.loc then allowCpu
  else if t!"cu".isPrefixOf (v.loc.getD []) then (cudas.map cudaLabel).contains (v.loc.getD [])
  else false

/-- The loop (tr 30-39). -/
def kept (cudas : List SV) (allowCpu : Bool) (version : P → Ver) : List P → Except TErr (List (SV × P))
  | [] => .ok []
  | p :: ps => match version p with
    | .std v => match kept cudas allowCpu version ps with
      | .error e => .error e
      | .ok r => .ok (if keep cudas allowCpu v then (v, p) :: r else r)
    | _ => .error .attribute

/-- `key` (tr 45-52). -/
def key (v : SV) : Except TErr (Nat × SV × Nat) :=
  let arch := if isCpu v.loc then 0 else 1
  if t!"cu".isPrefixOf (v.loc.getD []) then
    match pyInt ((v.loc.getD []).drop 2) with
    | .error _ => .error .value
    | .ok n => .ok (arch, v, n)
  else .ok (arch, v, 0)

/-- `<` of two keys, which are tuples. -/
def keyLt (a b : Nat × SV × Nat) : Bool :=
  if a.1 ≠ b.1 then decide (a.1 < b.1)
  else if !a.2.1.eqv b.2.1 then a.2.1.lt b.2.1
  else decide (a.2.2 < b.2.2)

/-- The keys of all packages, which `sort` computes first. -/
def keyed : List (SV × P) → Except TErr (List ((Nat × SV × Nat) × P))
  | [] => .ok []
  | (v, p) :: ps => match key v with
    | .error e => .error e
    | .ok k => match keyed ps with
      | .error e => .error e
      | .ok r => .ok ((k, p) :: r)

/-- `_do_match` (tr 28-55) on the packages of the index. -/
def doMatch (cudas : List SV) (allowCpu : Bool) (version : P → Ver) (ps : List P) : Except TErr (List P) :=
  match kept cudas allowCpu version ps with
  | .error e => .error e
  | .ok l => match keyed l with
    | .error e => .error e
    | .ok ks => .ok ((sortBy (fun a b => !keyLt a.1 b.1) ks).map (·.2))

/-- `_CudaVersionSpec` (cc 19-23). -/
structure CudaSpec where
  cuda : SV
  linux : VSpec
  windows : VSpec

/-- `compatible_cuda_versions` (cc 56-69). -/
def compatibleCuda (table : List CudaSpec) (driver : Ver) (windows : Bool) : List SV :=
  (table.filter (fun s => (windows && s.windows.allows driver) || (!windows && s.linux.allows driver))).map (·.cuda)

/-- `DownloadTorchRepositoryBuilder.build` (tr 67-68; cc 46-54, 71-76): the compatible versions of CUDA. `table` is what the
file of the module gives, or the updated one. -/
def build (modules : List Text) (table : List CudaSpec) (nvidia : Option Ver) (windows : Bool) : Except TErr (List SV) :=
  if !modules.contains t!"pkm_torch_repository" then .error .noModule
  else match nvidia with
    | none => .error .noDriver
    | some d => .ok (compatibleCuda table d windows)

end Pkm.Torch
