import Verif.Dict
import Verif.Text
import Mathlib.Data.Int.Bitwise
/-
Model of the collection helpers: pkm/src/pkm/utils/iterators.py ("it"), seqs.py ("sq"), sets.py,
dicts.py, sequences.py, strings.py and the `HashBuilder` of hashes.py ("hb").

Sequences and iterators are lists; laziness is not modelled.
-/
namespace Pkm
namespace Coll

/-- One step of `groupby` (it 19-24). The list in the dictionary is mutated in place; here it is
replaced, which no caller can tell apart as nobody else holds it yet. -/
def groupStep {T K : Type} [DecidableEq K] (key : T → K) (d : Dict K (List T)) (x : T) :
    Dict K (List T) :=
  match d.get (key x) with
  | none => d.put (key x) [x]
  | some l => d.put (key x) (l ++ [x])

/-- `groupby` (iterators.py 12-26). -/
def groupby {T K : Type} [DecidableEq K] (xs : List T) (key : T → K) : Dict K (List T) :=
  xs.foldl (groupStep key) []

/-- `find_first` (iterators.py 29-36) with `none_value = None`. -/
def findFirst {T : Type} (xs : List T) (p : T → Bool) : Option T := xs.find? p

/-- The loop of `partition` (iterators.py 46-51). -/
def partitionLoop {T : Type} (p : T → Bool) : List T → List T × List T → List T × List T
  | [], acc => acc
  | x :: xs, (t, f) => partitionLoop p xs (if p x then (t ++ [x], f) else (t, f ++ [x]))

/-- `partition` (iterators.py 39-53), `Seq.partition_by` (seqs.py 107-115). -/
def partition {T : Type} (xs : List T) (p : T → Bool) : List T × List T := partitionLoop p xs ([], [])

/-- `single_or` (iterators.py 69-81) with the default `None`. -/
def singleOr {T : Type} : List T → Option T
  | [] => none
  | [x] => some x
  | _ :: _ :: _ => none

/-- `distinct` (iterators.py 84-95), `Seq.unique_by` (seqs.py 51-60): `tracked` is the set. -/
def distinctLoop {T K : Type} [DecidableEq K] (key : T → K) : List K → List T → List T
  | _, [] => []
  | tracked, x :: xs =>
    if key x ∈ tracked then distinctLoop key tracked xs
    else x :: distinctLoop key (key x :: tracked) xs

/-- See `distinctLoop`. -/
def uniqueBy {T K : Type} [DecidableEq K] (xs : List T) (key : T → K) : List T :=
  distinctLoop key [] xs

/-- `Seq.without_first` (seqs.py 62-70). -/
def withoutFirst {T : Type} [DecidableEq T] (item : T) : List T → List T
  | [] => []
  | x :: xs => if x = item then xs else x :: withoutFirst item xs

/-! ### sets and dicts -/

/-- `add_if_absent` (sets.py 8-18): the set after the call and the result. -/
def addIfAbsent {T : Type} [DecidableEq T] (s : List T) (x : T) : List T × Bool :=
  let s' := if x ∈ s then s else s ++ [x]
  (s', decide (s.length ≠ s'.length))

/-- `put_if_absent` (dicts.py 12-23). -/
def putIfAbsent {K V : Type} [DecidableEq K] (d : Dict K V) (k : K) (v : V) : Dict K V × Bool :=
  if d.has k then (d, false) else (d.put k v, true)

/-- `get_or_put` (dicts.py 26-36). -/
def getOrPut {K V : Type} [DecidableEq K] (d : Dict K V) (k : K) (mk : V) : Dict K V × V :=
  match d.get k with
  | none => (d.put k mk, mk)
  | some v => (d, v)

/-- `without_keys` (dicts.py 68-76). -/
def withoutKeys {K V : Type} [DecidableEq K] (d : Dict K V) (ks : List K) : Dict K V :=
  d.filter (fun p => decide (p.1 ∉ ks))

/-- `remove_by_value` with `match` (dicts.py 88-109): collect the keys, then delete them. -/
def removeByValue {K V : Type} [DecidableEq K] (d : Dict K V) (m : V → Bool) : Dict K V :=
  ((d.filter (fun p => m p.2)).map (·.1)).foldl Dict.del d

/-! ### sequences and strings -/

/-- `startswith` (sequences.py 18-22). -/
def startswith {T : Type} [DecidableEq T] (sq pre : List T) : Bool :=
  if pre.length > sq.length then false
  else (sq.zip pre).all (fun p => decide (p.1 = p.2))

/-- Index of the first minimum among the candidates so far: Python's `min(range(n), key=..)`. -/
def argminLoop (key : Nat → Int) : List Nat → Nat → Nat
  | [], best => best
  | i :: is, best => argminLoop key is (if key i < key best then i else best)

/-- `argmin` (sequences.py 25-32) with integer keys; `ValueError` for an empty sequence is `none`. -/
def argmin {T : Type} (xs : List T) (key : T → Int) : Option Nat :=
  match xs with
  | [] => none
  | x :: xs' => some (argminLoop (fun i => key ((x :: xs').getD i x)) (List.range' 1 xs'.length) 0)

/-- `argmax` (sequences.py 35-42): the first maximum. -/
def argmax {T : Type} (xs : List T) (key : T → Int) : Option Nat := argmin xs (fun x => - key x)

/-- Python's `seq[index]`; `IndexError` is `none`. -/
def pyIndex {T : Type} (xs : List T) (i : Int) : Option T :=
  if 0 ≤ i then xs[i.toNat]?
  else if -(xs.length : Int) ≤ i then xs[(i + xs.length).toNat]? else none

/-- `get_or_default` (sequences.py 67-77); `none` is `IndexError`. -/
def getOrDefault {T : Type} (xs : List T) (i : Int) (dflt : T) : Option T :=
  if -(xs.length : Int) > i ∧ i > (xs.length : Int) then some dflt else pyIndex xs i

/-- `s[:-n]`: for `n = 0` this is `s[:0]`, the empty text. -/
def dropRight (s : Text) (n : Nat) : Text := if n = 0 then [] else s.take (s.length - n)

/-- `without_suffix` (strings.py 4-13). -/
def withoutSuffix (s suffix : Text) : Text :=
  if suffix.isSuffixOf s then dropRight s suffix.length else s

/-- `without_prefix` (strings.py 16-25). -/
def withoutPrefix (s pre : Text) : Text :=
  if pre.isPrefixOf s then s.drop pre.length else s

end Coll

/-! ### HashBuilder -/

namespace HashBuilder

/-- `__init__` (hb 20-21). -/
def init : Int := 7

/-- `regular` (hb 23-30); the argument is `hash(arg)`. -/
def regular (r : Int) (h : Int) : Int := r * 31 + h

/-- `ordered_seq` (hb 40-52). -/
def orderedSeq {T : Type} (r : Int) (xs : List T) (itemHash : T → Int) : Int :=
  xs.foldl (fun acc x => acc * 31 + itemHash x) r

/-- `unordered_seq` (hb 54-66). -/
def unorderedSeq {T : Type} (r : Int) (xs : List T) (itemHash : T → Int) : Int :=
  r * 31 + xs.foldl (fun acc x => Int.xor acc (itemHash x)) (7 * 31)

/-- `unordered_mapping` (hb 68-85). -/
def unorderedMapping {K V : Type} (r : Int) (m : Dict K V) (kh : K → Int) (vh : V → Int) : Int :=
  r * 31 + m.foldl (fun acc p => Int.xor acc ((7 * 31 + kh p.1) * 31 + vh p.2)) 0

end HashBuilder
end Pkm
