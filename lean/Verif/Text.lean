/-
Text primitives shared by the models. Python `str` is modelled as `List Char`.
Character classes (`isdigit`, `isnumeric`, `isalnum`, `isspace`, `lower`) are modelled on ASCII.
-/
namespace Pkm

abbrev Text := List Char

/-- Python `a < b` on `str`: lexicographic by code point. -/
def strLt : Text → Text → Bool
  | [], [] => false
  | [], _ :: _ => true
  | _ :: _, [] => false
  | a :: as, b :: bs => if a = b then strLt as bs else decide (a.toNat < b.toNat)

/-- `c.isdigit()` restricted to ASCII. -/
def isDigit (c : Char) : Bool := 48 ≤ c.toNat && c.toNat ≤ 57

/-- `s.isnumeric()` restricted to ASCII: non-empty and digits only. -/
def isNumeric (s : Text) : Bool := !s.isEmpty && s.all isDigit

/-- ASCII lower-case letter. -/
def isLower (c : Char) : Bool := 97 ≤ c.toNat && c.toNat ≤ 122

/-- ASCII upper-case letter. -/
def isUpper (c : Char) : Bool := 65 ≤ c.toNat && c.toNat ≤ 90

/-- `c.isalnum()` restricted to ASCII. -/
def isAlnum (c : Char) : Bool := isDigit c || isLower c || isUpper c

/-- `c.isspace()` restricted to ASCII (space, \t \n \v \f \r and the separators 0x1c-0x1f). -/
def isSpace (c : Char) : Bool :=
  c.toNat == 32 || (9 ≤ c.toNat && c.toNat ≤ 13) || (28 ≤ c.toNat && c.toNat ≤ 31)

/-- `c.lower()` restricted to ASCII. -/
def lowerChar (c : Char) : Char := if isUpper c then Char.ofNat (c.toNat + 32) else c

/-- `s.lower()` restricted to ASCII. -/
def lower (s : Text) : Text := s.map lowerChar

/-- `s.split(sep)` for a one-character separator; `"".split('.') == [""]`. -/
def splitOn (sep : Char) : Text → List Text
  | [] => [[]]
  | c :: cs =>
    if c = sep then [] :: splitOn sep cs
    else match splitOn sep cs with
      | [] => [[c]]
      | s :: ss => (c :: s) :: ss

end Pkm
