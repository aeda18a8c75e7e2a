import Verif.Text
/-
Model of pkm/src/pkm/utils/parsers.py `SimpleParser` (cited as "ps").

`self.text` and `self.position` are a zipper: the characters before the position, last one first,
and the characters from the position on. `ValueError` of `raise_err` is `none`.
-/
namespace Pkm

/-- `self.text[:position]` reversed and `self.text[position:]` (ps 18-21). -/
structure PS where
  prev : Text := []
  rest : Text
  deriving DecidableEq, Repr

namespace PS

/-- A fresh parser (ps 18-21). -/
def ofText (t : Text) : PS := { rest := t }

/-- `self.position += n`, for `n` not beyond the end. -/
def adv : Nat → PS → PS
  | 0, p => p
  | n + 1, ⟨pv, c :: cs⟩ => adv n ⟨c :: pv, cs⟩
  | _ + 1, p => p

/-- `self.position -= 1` for a position above 0. -/
def back : PS → PS
  | ⟨c :: pv, rest⟩ => ⟨pv, c :: rest⟩
  | p => p

/-- `f(self.peek())` for a class of characters; false at the end (ps 23-25). -/
def peekIs (f : Char → Bool) (p : PS) : Bool :=
  match p.rest with
  | c :: _ => f c
  | [] => false

/-- `f(self.peek_prev())` for a class of characters; false at the start (ps 80-83). -/
def prevIs (f : Char → Bool) (p : PS) : Bool :=
  match p.prev with
  | c :: _ => f c
  | [] => false

/-- `self.match(s)` with one argument (ps 66-78): the parser after the match. -/
def lit (s : Text) (p : PS) : Option PS :=
  if s.isPrefixOf p.rest then some (p.adv s.length) else none

/-- `self.match_any(*substrs)` (ps 85-90). -/
def litAny : List Text → PS → Option (Text × PS)
  | [], _ => none
  | s :: ss, p => match p.lit s with
    | some q => some (s, q)
    | none => litAny ss p

/-- `self.match_any(*substrs)` as a statement: the position moves if something matches. -/
def skipAny (ss : List Text) (p : PS) : PS :=
  match p.litAny ss with
  | some (_, q) => q
  | none => p

/-- `self.until(lambda i, s: stop(s[i]))` (ps 128-141). -/
def untilP (stop : Char → Bool) (p : PS) : Text × PS :=
  let m := p.rest.takeWhile (fun c => !stop c)
  (m, ⟨m.reverse ++ p.prev, p.rest.dropWhile (fun c => !stop c)⟩)

/-- `self.match_ws()` (ps 171-182). -/
def ws (p : PS) : PS := (p.untilP (fun c => !isSpace c)).2

/-- `self.match(s, "")` (ps 66-78): `s` and the white space other than line feeds after it. -/
def litWs (s : Text) (p : PS) : Option (Text × PS) :=
  match p.lit s with
  | none => none
  | some q =>
    let (w, q') := q.untilP (fun c => !(isSpace c && c != '\n'))
    some (s ++ w, q')

/-- `int(digits)`. -/
def toNat (ds : Text) : Nat := ds.foldl (fun n c => 10 * n + (c.toNat - 48)) 0

/-- `int(self.read_digits())` (ps 33-38). -/
def readNat (p : PS) : Option (Nat × PS) :=
  let (ds, q) := p.untilP (fun c => !isDigit c)
  if ds.isEmpty then none else some (toNat ds, q)

/-- `0 if not self.peek().isdigit() else int(self.read_digits())`. -/
def natOr0 (p : PS) : Nat × PS :=
  match p.readNat with
  | some (n, q) => (n, q)
  | none => (0, p)

end PS

/-- The decimal digit `d` for `d < 10`. -/
def digitChar (d : Nat) : Char := Char.ofNat (48 + d)

/-- Digits of `n`, with a bound on their number. -/
def showNatF : Nat → Nat → Text
  | 0, _ => []
  | f + 1, n => if n < 10 then [digitChar n] else showNatF f (n / 10) ++ [digitChar (n % 10)]

/-- `str(n)` of a non-negative int. -/
def showNat (n : Nat) : Text := showNatF (n + 1) n

end Pkm
