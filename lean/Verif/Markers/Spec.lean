import Verif.Markers.Model
/-
Specification for environment markers: expressions as they are written, with all their blanks and
parentheses, their text, their value, and which of them are well formed.

An expression is a non-empty list of groups joined by `or`, a group a non-empty list of pieces joined
by `and`, a piece is a comparison or an expression in parentheses. So `and` binds stronger than `or`
by construction.
-/
namespace Pkm.Markers

/-- An operand as written: a text between quotes or an identifier. -/
inductive Word where
  | str (double : Bool) (s : Text)
  | name (n : Text)

/-- The quote character. -/
def quoteChar (double : Bool) : Char := if double then '"' else '\''

/-- The text of an operand. -/
def Word.text : Word → Text
  | .str d s => quoteChar d :: (s ++ [quoteChar d])
  | .name n => n

/-- A quoted text contains only characters markers may contain or the other quote; an identifier is
a letter followed by letters, digits, underscores, dashes and dots. -/
def Word.Ok : Word → Prop
  | .str d s => ∀ c, c ∈ s → c = quoteChar (!d) ∨ c ∈ markerStrChars
  | .name n => ∃ c cs, n = c :: cs ∧ isAlpha c = true ∧ ∀ d, d ∈ cs → isIdent d = true

/-- Is it an identifier. -/
def Word.isName : Word → Bool
  | .str _ _ => false
  | .name _ => true

/-- What an operand stands for: itself, the requested extras, or a marker of the environment. -/
def Word.operand : Word → Operand
  | .str _ s => .str s
  | .name n => if n = "extra".toList then .extra else .name n

/-- An operator as written. -/
inductive OpWord where
  | le | lt | ge | gt | ne | eq | compat | isIn
  | notIn (gap : Text)

/-- The text of an operator. -/
def OpWord.text : OpWord → Text
  | .le => ['<', '='] | .lt => ['<'] | .ge => ['>', '='] | .gt => ['>'] | .ne => ['!', '=']
  | .eq => ['=', '='] | .compat => ['~', '='] | .isIn => ['i', 'n']
  | .notIn g => 'n' :: 'o' :: 't' :: (g ++ ['i', 'n'])

/-- The blanks between `not` and `in` contain no line feed. -/
def OpWord.Ok : OpWord → Prop
  | .notIn g => ∀ c, c ∈ g → isSpace c = true ∧ c ≠ '\n'
  | _ => True

/-- Is it `in` or `not in`. -/
def OpWord.isWordy : OpWord → Bool
  | .isIn | .notIn _ => true
  | _ => false

/-- The operator it stands for. -/
def OpWord.op : OpWord → Op
  | .le => .le | .lt => .lt | .ge => .ge | .gt => .gt | .ne => .ne | .eq => .eq
  | .compat => .compat | .isIn => .isIn | .notIn _ => .notIn

/-- A comparison or an expression in parentheses, with the blanks `b…` around their parts. -/
inductive Piece where
  | atom (b0 : Text) (l : Word) (b1 : Text) (op : OpWord) (b2 : Text) (r : Word) (b3 : Text)
  | paren (b0 : Text) (groups : List (List Piece)) (b3 : Text)

/-- An expression: groups joined by `or` of pieces joined by `and`. -/
abbrev Expr := List (List Piece)

mutual
/-- The text of a piece. -/
def Piece.text : Piece → Text
  | .atom b0 l b1 op b2 r b3 => b0 ++ (l.text ++ (b1 ++ (op.text ++ (b2 ++ (r.text ++ b3)))))
  | .paren b0 gs b3 => b0 ++ ('(' :: (orText gs ++ (')' :: b3)))
/-- The text of a group. -/
def andText : List Piece → Text
  | [] => []
  | [p] => p.text
  | p :: q :: ps => p.text ++ ('a' :: 'n' :: 'd' :: andText (q :: ps))
/-- The text of an expression. -/
def orText : List (List Piece) → Text
  | [] => []
  | [g] => andText g
  | g :: h :: gs => andText g ++ ('o' :: 'r' :: orText (h :: gs))
end

/-- Conjunction, from left to right, stopping at the first that does not hold. -/
def allOf : List (Except MErr Bool) → Except MErr Bool
  | [] => .ok true
  | v :: vs => match v with
    | .ok true => allOf vs
    | r => r

/-- Disjunction, from left to right, stopping at the first that holds. -/
def anyOf : List (Except MErr Bool) → Except MErr Bool
  | [] => .ok false
  | v :: vs => match v with
    | .ok false => anyOf vs
    | r => r

mutual
/-- The value of a piece. -/
def Piece.value (c : Ctx) : Piece → Except MErr Bool
  | .atom _ l _ op _ r _ => compareOperands c l.operand op.op r.operand
  | .paren _ gs _ => anyOf (groupValues c gs)
/-- The values of the pieces of a group. -/
def pieceValues (c : Ctx) : List Piece → List (Except MErr Bool)
  | [] => []
  | p :: ps => p.value c :: pieceValues c ps
/-- The values of the groups of an expression. -/
def groupValues (c : Ctx) : List (List Piece) → List (Except MErr Bool)
  | [] => []
  | g :: gs => allOf (pieceValues c g) :: groupValues c gs
end

/-- The value of an expression: does some group hold. -/
def exprValue (c : Ctx) (gs : Expr) : Except MErr Bool := anyOf (groupValues c gs)

/-- Blanks only. -/
def Blank (b : Text) : Prop := ∀ c, c ∈ b → isSpace c = true

/-- A piece that may be followed directly by `and` and `or`: it does not end in an identifier. -/
def Piece.closed : Piece → Bool
  | .atom _ _ _ _ _ r b3 => !(r.isName && b3.isEmpty)
  | .paren _ _ _ => true

mutual
/-- A well formed piece. -/
def Piece.Ok : Piece → Prop
  | .atom b0 l b1 op b2 r b3 => Blank b0 ∧ Blank b1 ∧ Blank b2 ∧ Blank b3 ∧ l.Ok ∧ op.Ok ∧ r.Ok ∧
      (l.isName = true → op.isWordy = true → b1 ≠ [])
  | .paren b0 gs b3 => Blank b0 ∧ Blank b3 ∧ gs ≠ [] ∧ groupsOk gs ∧
      ∀ p, p ∈ gs.flatten.dropLast → p.closed = true
/-- All pieces are well formed. -/
def piecesOk : List Piece → Prop
  | [] => True
  | p :: ps => p.Ok ∧ piecesOk ps
/-- All groups are non-empty and their pieces well formed. -/
def groupsOk : List (List Piece) → Prop
  | [] => True
  | g :: gs => g ≠ [] ∧ piecesOk g ∧ groupsOk gs
end

/-- A well formed expression. -/
def ExprOk (gs : Expr) : Prop :=
  gs ≠ [] ∧ groupsOk gs ∧ ∀ p, p ∈ gs.flatten.dropLast → p.closed = true

end Pkm.Markers
