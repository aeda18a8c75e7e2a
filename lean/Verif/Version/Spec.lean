import Verif.Version.Model
/-
Vocabulary for the version properties, independent of the code's comparison functions.
Only the data types (`SV`, `Ver`) and text primitives are used.
-/
namespace Pkm.Spec

/-- Component `i` of a release; missing components count as zero. -/
def relAt (r : List Nat) (i : Nat) : Nat := r.getD i 0

/-- Two releases denote the same number: `1.0` and `1.0.0`. -/
def RelSame (r s : List Nat) : Prop := ∀ i, relAt r i = relAt s i

/-- Numeric order of releases: smaller at the first component where they differ. -/
def RelBefore (r s : List Nat) : Prop :=
  ∃ i, (∀ j, j < i → relAt r j = relAt s j) ∧ relAt r i < relAt s i

/-- Exactly one of three propositions holds. -/
def ExactlyOne (p q r : Prop) : Prop := (p ∧ ¬q ∧ ¬r) ∨ (¬p ∧ q ∧ ¬r) ∨ (¬p ∧ ¬q ∧ r)

/-- The dot-separated pieces of two local labels agree up to a point where both have a number and
the numbers are written differently. -/
def NumericLabelClash (x y : Text) : Prop :=
  ∃ p m n s t, splitOn '.' x = p ++ m :: s ∧ splitOn '.' y = p ++ n :: t ∧
    m ≠ n ∧ isNumeric m = true ∧ isNumeric n = true

/-- The only pairs of labels the code cannot order: a numeric clash, or absent versus empty. -/
def LabelClash (x y : Option Text) : Prop :=
  NumericLabelClash (x.getD []) (y.getD []) ∨ (x = none ∧ y = some []) ∨ (x = some [] ∧ y = none)

/-- Two versions agree in everything but the local label. -/
def SamePublic (a b : SV) : Prop :=
  a.epoch.getD 0 = b.epoch.getD 0 ∧ RelSame a.release b.release ∧ a.pre = b.pre ∧
    a.post = b.post ∧ a.dev = b.dev

/-! PEP 440 order of public versions, as in the `packaging` library's comparison key. -/

/-- Pre-release key: a dev release of nothing else sorts first, final releases last. -/
inductive PreKey where
  | bottom
  | tag (t : Text) (n : Nat)
  | top
  deriving DecidableEq

def preKey (v : SV) : PreKey :=
  match v.pre, v.post, v.dev with
  | some (t, n), _, _ => .tag t n
  | none, none, some _ => .bottom
  | none, _, _ => .top

def PreKey.Before : PreKey → PreKey → Prop
  | .bottom, .tag _ _ => True
  | .bottom, .top => True
  | .tag _ _, .top => True
  | .tag t n, .tag u m => strLt t u = true ∨ (t = u ∧ n < m)
  | _, _ => False

/-- No post release sorts before any post release. -/
def PostBefore : Option Nat → Option Nat → Prop
  | none, some _ => True
  | some x, some y => x < y
  | _, _ => False

/-- A dev release sorts before the release itself. -/
def DevBefore : Option Nat → Option Nat → Prop
  | some _, none => True
  | some x, some y => x < y
  | _, _ => False

/-- PEP 440 order on versions without local label. -/
def PepBefore (a b : SV) : Prop :=
  a.epoch.getD 0 < b.epoch.getD 0 ∨
  (a.epoch.getD 0 = b.epoch.getD 0 ∧
    (RelBefore a.release b.release ∨
    (RelSame a.release b.release ∧
      (PreKey.Before (preKey a) (preKey b) ∨
      (preKey a = preKey b ∧
        (PostBefore a.post b.post ∨
        (a.post = b.post ∧ DevBefore a.dev b.dev)))))))

/-- The version is final, pre-, post-, or a plain dev release (dev is not combined with pre/post). -/
def DevAlone (v : SV) : Prop := v.dev = none ∨ (v.pre = none ∧ v.post = none)

end Pkm.Spec
