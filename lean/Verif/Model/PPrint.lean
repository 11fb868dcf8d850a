import Verif.Model.CText
import Verif.Model.ClastGen

/-!
# Printing a clast as C

Model of source/pprint.c:92-680 for the C language.  The strings given to `fprintf` are cut into tokens
and white space.  Not modelled: OpenScop bodies (299-379), Fortran, and the fields of for loops that are
only set by other tools (parallelisation, timing).
-/

namespace Verif.PPrint
open Verif.CText Verif.Clast Verif.ClastGen

/-! ## Expressions -/

/-- `cloog_int_print` (include/cloog/int.h.in:143, 87). -/
def printInt (n : Int) : List Tok := if n < 0 then [.minus, .num n.natAbs] else [.num n.natAbs]

/-- The test `type == clast_expr_red && n > 1` (source/pprint.c:106-107, 147-148). -/
def group : Expr → Bool
  | .red _ elts => decide (1 < elts.length)
  | _ => false

/-- Parentheses if `group` (source/pprint.c:115-119). -/
def parens (g : Bool) (p : List Tok) : List Tok := if g then .lpar :: (p ++ [.rpar]) else p

/-- The `val` field of a term (source/pprint.c:137). -/
def coef : Expr → Int
  | .cst c => c
  | .term c _ => c
  | _ => 0

/-- The coefficient in front of a variable (source/pprint.c:108-114). -/
def printCoef (c : Int) : List Tok :=
  if c = 1 then [] else if c = -1 then [.minus] else printInt c ++ [.star]

/-- The name printed for a minimum or maximum (source/pprint.c:214). -/
def mmName : RedType → String
  | .max => "max"
  | _ => "min"

mutual
/-- `pprint_expr`, `pprint_term`, `pprint_binary`, `pprint_reduction` (source/pprint.c:103-123, 144-194,
    224-266). -/
def printExpr : Expr → List Tok
  | .name s => [.id s]
  | .cst c => printInt c
  | .term c v => printCoef c ++ parens (group v) (printExpr v)
  | .bin .fdiv lhs rhs => .id "floord" :: .lpar :: (printExpr lhs ++ .comma :: (printInt rhs ++ [.rpar]))
  | .bin .cdiv lhs rhs => .id "ceild" :: .lpar :: (printExpr lhs ++ .comma :: (printInt rhs ++ [.rpar]))
  | .bin .div lhs rhs => parens (group lhs) (printExpr lhs) ++ .slash :: printInt rhs
  | .bin .mod lhs rhs => parens (group lhs) (printExpr lhs) ++ .percent :: printInt rhs
  | .red _ [] => []
  | .red .sum (e :: es) => printExpr e ++ printSum es
  | .red t (e :: es) =>
    (List.replicate es.length [Tok.id (mmName t), Tok.lpar]).flatten ++ printExpr e ++ printMM es
/-- The operands of a sum after the first (source/pprint.c:134-141).  That they are terms is an
    assertion of the code. -/
def printSum : List Expr → List Tok
  | [] => []
  | e :: es => (if 0 < coef e then [.plus] else []) ++ printExpr e ++ printSum es
/-- The operands of a minimum or maximum after the first (source/pprint.c:217-221). -/
def printMM : List Expr → List Tok
  | [] => []
  | e :: es => .comma :: printExpr e ++ [.rpar] ++ printMM es
end

/-! ## Statements -/

/-- A token or white space. -/
inductive Piece
  | tok (t : Tok)
  | ws (cs : List Char)

/-- Tokens as pieces. -/
def toks (ts : List Tok) : List Piece := ts.map .tok

/-- `fprintf(dst, "%*s", indent, "")`. -/
def ind (n : Nat) : Piece := .ws (List.replicate n ' ')

/-- `INDENT_STEP` (include/cloog/pprint.h:47). -/
def indentStep : Nat := 2

/-- A new line. -/
def nl : Piece := .ws ['\n']

/-- One space. -/
def sp : Piece := .ws [' ']

/-- The comparison of an equation (source/pprint.c:271-276). -/
def relTok (sign : Int) : Tok := if sign = 0 then .eqeq else if 0 < sign then .ge else .le

/-- `pprint_equation` (source/pprint.c:268-278). -/
def printEqn (q : Eqn) : List Piece :=
  toks (printExpr q.lhs) ++ sp :: .tok (relTok q.sign) :: sp :: toks (printExpr q.rhs)

/-- The equations of a guard, each in parentheses, after the first (source/pprint.c:455-464). -/
def printEqns : List Eqn → List Piece
  | [] => []
  | q :: qs => sp :: .tok .andand :: sp :: .tok .lpar :: (printEqn q ++ .tok .rpar :: printEqns qs)

/-- The condition of a guard (source/pprint.c:453-466). -/
def printCond : List Eqn → List Piece
  | [] => []
  | [q] => .tok .lpar :: (printEqn q ++ [.tok .rpar])
  | q :: qs => .tok .lpar :: .tok .lpar :: (printEqn q ++ .tok .rpar :: (printEqns qs ++ [.tok .rpar]))

/-- `pprint_parentheses_are_safer` for an argument without left-hand side (source/pprint.c:388-402). -/
def safer : Expr → Bool
  | .cst _ => false
  | .term _ _ => false
  | .red _ [.cst _] => false
  | .red _ [.term _ _] => false
  | _ => true

/-- The arguments of a statement (source/pprint.c:421-437). -/
def printArgs : List Expr → List Tok
  | [] => []
  | [e] => parens (safer e) (printExpr e)
  | e :: es => parens (safer e) (printExpr e) ++ .comma :: printArgs es

/-- The last part of a loop header (source/pprint.c:622-629). -/
def printStep (it : String) (stride : Int) : List Tok :=
  if 1 < stride then .semi :: .id it :: .pluseq :: (printInt stride ++ [.rpar])
  else [.semi, .id it, .incr, .rpar]

/-- The first part of a loop header (source/pprint.c:586-594). -/
def printInit (it : String) : Option Expr → List Tok
  | some e => .id it :: .asg :: printExpr e
  | none => []

/-- The second part of a loop header (source/pprint.c:603-613). -/
def printTest (it : String) : Option Expr → List Tok
  | some e => .id it :: .le :: printExpr e
  | none => []

/-- The loop header after `for (` (source/pprint.c:581-629). -/
def printHead (it : String) (lb ub : Option Expr) (stride : Int) : List Tok :=
  printInit it lb ++ .semi :: (printTest it ub ++ printStep it stride)

mutual
/-- `pprint_stmt_list` without the root (source/pprint.c:648-680); `nm` gives the name of a statement
    (its own, or "S" and its number, 412-418). -/
def printStmts (nm : Nat → String) (indent : Nat) : List Stmt → List Piece
  | [] => []
  | s :: rest => ind indent :: (printStmt nm indent s ++ printStmts nm indent rest)
/-- One statement: `pprint_assignment` (280-286), `pprint_user_stmt` (404-443), `pprint_for` (482-646),
    `pprint_guard` (445-480), a block (670-675). -/
def printStmt (nm : Nat → String) (indent : Nat) : Stmt → List Piece
  | .ass x e => .tok (.id x) :: sp :: .tok .asg :: sp :: (toks (printExpr e) ++ [.tok .semi, nl])
  | .user k args => toks (.id (nm k) :: .lpar :: (printArgs args ++ [.rpar, .semi])) ++ [nl]
  | .block body => .tok .lbrace :: nl :: (printStmts nm (indent + indentStep) body ++
      [ind indent, .tok .rbrace, nl])
  | .guard eqs body => .tok (.id "if") :: sp :: (printCond eqs ++ sp :: .tok .lbrace :: nl ::
      (printStmts nm (indent + indentStep) body ++ [ind indent, .tok .rbrace, nl]))
  | .for_ it lb ub stride body => .tok (.id "for") :: sp :: .tok .lpar :: (toks (printHead it lb ub stride) ++
      sp :: .tok .lbrace :: nl ::
      (printStmts nm (indent + indentStep) body ++ [ind indent, .tok .rbrace, nl]))
end

/-! ## Characters -/

/-- Decimal digits (`%d`, `%lld` or GMP's printing); `fuel` bounds their number. -/
def decChars : Nat → Nat → List Char
  | 0, _ => []
  | fuel + 1, n =>
    if n < 10 then [Char.ofNat (48 + n)] else decChars fuel (n / 10) ++ [Char.ofNat (48 + n % 10)]

/-- The characters of a token. -/
def spell : Tok → List Char
  | .id s => s.toList
  | .num n => decChars (n + 1) n
  | .plus => ['+'] | .minus => ['-'] | .star => ['*'] | .slash => ['/'] | .percent => ['%']
  | .lpar => ['('] | .rpar => [')'] | .lbrace => ['{'] | .rbrace => ['}']
  | .comma => [','] | .semi => [';']
  | .asg => ['='] | .le => ['<', '='] | .ge => ['>', '='] | .eqeq => ['=', '=']
  | .andand => ['&', '&'] | .incr => ['+', '+'] | .decr => ['-', '-'] | .pluseq => ['+', '=']

/-- The characters of a piece. -/
def Piece.chars : Piece → List Char
  | .tok t => spell t
  | .ws cs => cs

/-- The text written. -/
def text (ps : List Piece) : List Char := ps.flatMap Piece.chars

/-- The tokens among the pieces. -/
def tokens : List Piece → List Tok
  | [] => []
  | .tok t :: ps => t :: tokens ps
  | .ws _ :: ps => tokens ps

end Verif.PPrint
