/-
Model of the explanation of a failed resolution: `Incompatibility.report` (pkm/src/pkm/resolution/pubgrub.py 352-413, "pg").

An incompatibility is a fact (`external_cause`) or was derived from two others (`internal_cause`). Two incompatibilities are the same key of a
dictionary if they have the same terms (pg 327-331): the key. The texts are kept as what they say: which facts and which incompatibilities they name,
which line numbers they give. Not modelled: the words themselves; the depth of the recursion of Python.
-/
namespace Pkm
namespace Report

variable {K F : Type} [DecidableEq K]

/-- An `Incompatibility` with the causes of it (pg 276-283). -/
inductive Cause (K F : Type) where
  | fact (k : K) (f : F)
  | both (k : K) (a b : Cause K F)

def Cause.key : Cause K F → K
  | .fact k _ => k
  | .both k _ _ => k

/-- What a line says; the last key is its conclusion. -/
inductive Line (K F : Type) where
  /-- the fact itself (pg 360) -/
  | fact (f : F)
  /-- "Because {ic1} and {ic2}, {}" (pg 410) -/
  | because (f g : F) (k : K)
  /-- "Because {ic1} which is unresolved, {}" (pg 408), where `g` is that no version was found -/
  | unresolved (f g : F) (k : K)
  /-- "Because {ex} and {dr} ({n}), {}" (pg 397) -/
  | becauseFact (f : F) (kd : K) (n : Nat) (k : K)
  /-- "And because {prior_ex} and {ex}, {}" (pg 402) -/
  | andFacts (f g : F) (k : K)
  /-- "And because {ex}, {}" (pg 405) -/
  | andFact (f : F) (k : K)
  /-- "Because {ic1} ({n}) and {ic2} ({m}), {}" (pg 368) -/
  | becauseTwo (k1 : K) (n : Nat) (k2 : K) (m : Nat) (k : K)
  /-- "And because {ic1} ({n}), {}" (pg 371) -/
  | andLine (k1 : K) (n : Nat) (k : K)
  /-- "And because {ic2} ({text}), {}" (pg 374): the text of a line where its number should be -/
  | andText (k2 : K) (text : Line K F) (k : K)
  /-- "Thus, {}" (pg 378, 382) -/
  | thus (k : K)
  /-- "So, because {ic1} ({n}) and {ic2} ({m}), {}" (pg 388-389) -/
  | so (k1 : K) (n : Nat) (k2 : K) (m : Nat) (k : K)
  /-- (pg 385, 387) -/
  | blank
  deriving DecidableEq

/-- The dictionary `report` in the order of its keys (pg 353): an incompatibility, or a number for an empty line; number and text. -/
abbrev Rep (K F : Type) := List ((K ⊕ Nat) × Nat × Line K F)

/-- Setting a key of a dictionary: a new one comes last. -/
def put (r : Rep K F) (key : K ⊕ Nat) (v : Nat × Line K F) : Rep K F :=
  match r with
  | [] => [(key, v)]
  | e :: r => if e.1 = key then (key, v) :: r else e :: put r key v

/-- `write` (pg 355-356). -/
def write (r : Rep K F) (key : K ⊕ Nat) (l : Line K F) : Rep K F := put r key (r.length, l)

/-- `report.get` (pg 365). -/
def get (r : Rep K F) (k : K) : Option (Nat × Line K F) := (r.find? (fun e => e.1 = .inl k)).map (·.2)

/-- `report[ic][0]` (pg 389); the key is always there. -/
def number (r : Rep K F) (k : K) : Nat := ((get r k).map (·.1)).getD 0

/-- `is_simple` (pg 285-290). -/
def isSimple : Cause K F → Bool
  | .both _ (.fact _ _) (.fact _ _) => true
  | _ => false

/-- `generate` (pg 358-410); `missing`: the fact is that no version was found (pg 407). -/
def generate (missing : F → Bool) : Cause K F → Rep K F → Rep K F
  | .fact k f, r => write r (.inl k) (.fact f)
  | .both k (.fact _ f) (.fact _ g), r => write r (.inl k) (if missing g then .unresolved f g k else .because f g k)
  | .both k (.both k1 x1 y1) (.both k2 x2 y2), r =>
    match get r k1, get r k2 with
    | some l1, some l2 => write r (.inl k) (.becauseTwo k1 l1.1 k2 l2.1 k)
    | some l1, none => write (generate missing (.both k2 x2 y2) r) (.inl k) (.andLine k1 l1.1 k)
    | none, some l2 => write (generate missing (.both k1 x1 y1) r) (.inl k) (.andText k2 l2.2 k)
    | none, none =>
      if isSimple (.both k1 x1 y1) then
        write (generate missing (.both k1 x1 y1) (generate missing (.both k2 x2 y2) r)) (.inl k) (.thus k)
      else if isSimple (.both k2 x2 y2) then
        write (generate missing (.both k2 x2 y2) (generate missing (.both k1 x1 y1) r)) (.inl k) (.thus k)
      else
        let r1 := generate missing (.both k1 x1 y1) r
        let r2 := generate missing (.both k2 x2 y2) (write r1 (.inr r1.length) .blank)
        let r3 := write r2 (.inr r2.length) .blank
        write r3 (.inl k) (.so k1 (number r3 k1) k2 (number r3 k2) k)
  | .both k (.both kd x y) (.fact _ f), r =>
    match get r kd with
    | some l => write r (.inl k) (.becauseFact f kd l.1 k)
    | none => match x, y with
      | .both kx x1 x2, .fact _ g => write (generate missing (.both kx x1 x2) r) (.inl k) (.andFacts g f k)
      | .fact _ g, .both ky y1 y2 => write (generate missing (.both ky y1 y2) r) (.inl k) (.andFacts g f k)
      | x, y => write (generate missing (.both kd x y) r) (.inl k) (.andFact f k)
  | .both k (.fact _ f) (.both kd x y), r =>
    match get r kd with
    | some l => write r (.inl k) (.becauseFact f kd l.1 k)
    | none => match x, y with
      | .both kx x1 x2, .fact _ g => write (generate missing (.both kx x1 x2) r) (.inl k) (.andFacts g f k)
      | .fact _ g, .both ky y1 y2 => write (generate missing (.both ky y1 y2) r) (.inl k) (.andFacts g f k)
      | x, y => write (generate missing (.both kd x y) r) (.inl k) (.andFact f k)

/-- Insertion into a list of lines in the order of their numbers, after those with the same number. -/
def insert (v : Nat × Line K F) : List (Nat × Line K F) → List (Nat × Line K F)
  | [] => [v]
  | w :: ws => if v.1 < w.1 then v :: w :: ws else w :: insert v ws

/-- `sorted(report.values(), key=..)` (pg 412), which keeps the order of equal numbers. -/
def sorted (vs : List (Nat × Line K F)) : List (Nat × Line K F) := vs.foldl (fun acc v => insert v acc) []

/-- `Incompatibility.report` (pg 352-413): the lines with their numbers. -/
def report (missing : F → Bool) (c : Cause K F) : List (Nat × Line K F) :=
  sorted ((generate missing c []).map (·.2))

end Report
end Pkm
