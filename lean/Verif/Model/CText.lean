import Verif.Model.Clast
import Mathlib.Logic.Function.Basic

/-!
# The part of C that printed programs are written in

Specification side, independent of the printer: characters to tokens (longest match), tokens to syntax
trees (the grammar of C11, 6.5 and 6.8, restricted to the constructs that occur), and the meaning of the
trees over exact integers.  The macros `floord`, `ceild`, `min` and `max` are taken to have the values of
`IntOps` (C01 is about their text).
-/

namespace Verif.CText
open Verif.IntOps Verif.Clast

/-! ## Tokens -/

/-- Tokens.  Keywords are identifiers here. -/
inductive Tok
  | id (s : String)
  | num (n : Nat)
  | plus | minus | star | slash | percent
  | lpar | rpar | lbrace | rbrace | comma | semi
  | asg | le | ge | eqeq | andand | incr | decr | pluseq
  deriving DecidableEq, Repr

/-- Characters of identifiers and numbers. -/
def wordChar (c : Char) : Bool := c.isAlphanum || c == '_'

/-- Tokens of one character that is not a word character. -/
def single (c : Char) : Option Tok :=
  if c == '+' then some .plus else if c == '-' then some .minus else if c == '*' then some .star
  else if c == '/' then some .slash else if c == '%' then some .percent else if c == '(' then some .lpar
  else if c == ')' then some .rpar else if c == '{' then some .lbrace else if c == '}' then some .rbrace
  else if c == ',' then some .comma else if c == ';' then some .semi else if c == '=' then some .asg
  else none

/-- Pairs of characters that are read together: a token, or something not in this part of C (comments,
    other operators). -/
def double (c d : Char) : Option (Option Tok) :=
  if c == '+' && d == '+' then some (some .incr)
  else if c == '-' && d == '-' then some (some .decr)
  else if c == '+' && d == '=' then some (some .pluseq)
  else if c == '<' && d == '=' then some (some .le)
  else if c == '>' && d == '=' then some (some .ge)
  else if c == '=' && d == '=' then some (some .eqeq)
  else if c == '&' && d == '&' then some (some .andand)
  else if (c == '-' || c == '*' || c == '/' || c == '%') && d == '=' then some none
  else if c == '-' && d == '>' then some none
  else if c == '/' && (d == '/' || d == '*') then some none
  else if c == '%' && (d == ':' || d == '>') then some none
  else none

/-- Value of decimal digits. -/
def digitsVal (w : List Char) : Nat := w.foldl (fun a c => a * 10 + (c.toNat - 48)) 0

/-- The token spelled by some word characters, if any.  Octal and hexadecimal numbers are left out. -/
def word : List Char → Option (List Tok)
  | [] => some []
  | c :: w =>
    if c.isDigit then
      if w.all Char.isDigit && (c != '0' || w.isEmpty) then some [.num (digitsVal (c :: w))] else none
    else some [.id (String.ofList (c :: w))]

/-- Spaces. -/
def isSpace (c : Char) : Bool := c == ' ' || c == '\n'

/-- Put tokens in front of a result. -/
def putToks : Option (List Tok) → Option (List Tok) → Option (List Tok)
  | some a, some b => some (a ++ b)
  | _, _ => none

/-- Longest match; `w` are the word characters read so far. -/
def lexGo : List Char → List Char → Option (List Tok)
  | w, [] => word w
  | w, [c] =>
    if wordChar c then word (w ++ [c])
    else if isSpace c then word w
    else putToks (word w) ((single c).map fun t => [t])
  | w, c :: d :: cs =>
    if wordChar c then lexGo (w ++ [c]) (d :: cs)
    else if isSpace c then putToks (word w) (lexGo [] (d :: cs))
    else
      match double c d with
      | some (some t) => putToks (word w) ((lexGo [] cs).map fun r => t :: r)
      | some none => none
      | none => putToks (word w) (putToks ((single c).map fun t => [t]) (lexGo [] (d :: cs)))

/-- The tokens of a text. -/
def lex (cs : List Char) : Option (List Tok) := lexGo [] cs

/-! ## Expressions -/

/-- Binary operators. -/
inductive BOp | mul | div | mod | add | sub | le | ge | eq | and
  deriving DecidableEq, Repr

/-- Precedence, from 2 (tightest) to 6. -/
def BOp.level : BOp → Nat
  | .mul | .div | .mod => 2
  | .add | .sub => 3
  | .le | .ge => 4
  | .eq => 5
  | .and => 6

/-- The operator a token stands for between two operands. -/
def Tok.bop : Tok → Option BOp
  | .star => some .mul | .slash => some .div | .percent => some .mod
  | .plus => some .add | .minus => some .sub
  | .le => some .le | .ge => some .ge | .eqeq => some .eq | .andand => some .and
  | _ => none

/-- Syntax trees. -/
inductive CExpr
  | num (n : Nat)
  | var (s : String)
  | neg (e : CExpr)
  | bin (o : BOp) (a b : CExpr)
  | call (f : String) (args : List CExpr)

/-- Truth values. -/
def ofBool (b : Bool) : Int := if b then 1 else 0

/-- Value of a binary operation; `/` and `%` truncate. -/
def BOp.eval : BOp → Int → Int → Int
  | .mul, a, b => a * b
  | .div, a, b => a.tdiv b
  | .mod, a, b => a.tmod b
  | .add, a, b => a + b
  | .sub, a, b => a - b
  | .le, a, b => ofBool (decide (a ≤ b))
  | .ge, a, b => ofBool (decide (b ≤ a))
  | .eq, a, b => ofBool (decide (a = b))
  | .and, a, b => ofBool (decide (a ≠ 0 ∧ b ≠ 0))

/-- Values of the macros; 0 stands for anything else. -/
def macroVal (f : String) : List Int → Int
  | [a, b] =>
    if f = "floord" then floord a b else if f = "ceild" then ceild a b
    else if f = "min" then cmin a b else if f = "max" then cmax a b else 0
  | _ => 0

mutual
/-- Value of an expression. -/
def CExpr.eval (env : Env) : CExpr → Int
  | .num n => n
  | .var s => env s
  | .neg e => - e.eval env
  | .bin o a b => o.eval (a.eval env) (b.eval env)
  | .call f args => macroVal f (CExpr.evals env args)
/-- Values of arguments. -/
def CExpr.evals (env : Env) : List CExpr → List Int
  | [] => []
  | e :: es => e.eval env :: CExpr.evals env es
end

mutual
/-- The grammar of expressions: `Parse k ts e` if the tokens are an expression of level `k` (0 primary,
    1 unary, 2 multiplicative, 3 additive, 4 relational, 5 equality, 6 logical and). -/
inductive Parse : Nat → List Tok → CExpr → Prop
  | num (n) : Parse 0 [.num n] (.num n)
  | var (s) : Parse 0 [.id s] (.var s)
  | paren {p e} : Parse 6 p e → Parse 0 (.lpar :: (p ++ [.rpar])) e
  | call0 (f) : Parse 0 [.id f, .lpar, .rpar] (.call f [])
  | call {f p es} : ParseArgs p es → Parse 0 (.id f :: .lpar :: (p ++ [.rpar])) (.call f es)
  | neg {p e} : Parse 1 p e → Parse 1 (.minus :: p) (.neg e)
  | lift {k p e} : k < 6 → Parse k p e → Parse (k + 1) p e
  | bin {k p a q b t o} : Tok.bop t = some o → o.level = k + 1 → Parse (k + 1) p a → Parse k q b →
      Parse (k + 1) (p ++ t :: q) (.bin o a b)
/-- One or more arguments with commas between them. -/
inductive ParseArgs : List Tok → List CExpr → Prop
  | one {p e} : Parse 6 p e → ParseArgs p [e]
  | cons {p e q es} : Parse 6 p e → ParseArgs q es → ParseArgs (p ++ .comma :: q) (e :: es)
end

/-! ## Statements -/

/-- Statements.  A for statement: optional initialisation `x = e`, optional test, and `y += e`. -/
inductive CStmt
  | asg (x : String) (e : CExpr)
  | expr (e : CExpr)
  | block (body : List CStmt)
  | ite (c : CExpr) (body : List CStmt)
  | loop (init : Option (String × CExpr)) (test : Option CExpr) (y : String) (step : CExpr)
      (body : List CStmt)

/-- The words that start a statement other than an expression. -/
def keyword (s : String) : Bool := decide (s = "if") || decide (s = "for")

/-- An optional initialisation. -/
inductive ParseInit : List Tok → Option (String × CExpr) → Prop
  | none : ParseInit [] none
  | some {x p e} : Parse 6 p e → ParseInit (.id x :: .asg :: p) (some (x, e))

/-- An optional test. -/
inductive ParseTest : List Tok → Option CExpr → Prop
  | none : ParseTest [] none
  | some {p e} : Parse 6 p e → ParseTest p (some e)

/-- An increment. -/
inductive ParseStep : List Tok → String → CExpr → Prop
  | incr (x) : ParseStep [.id x, .incr] x (.num 1)
  | add {x p e} : Parse 6 p e → ParseStep (.id x :: .pluseq :: p) x e

/-- The grammar of statement lists (no `else`, bodies in braces). -/
inductive ParseStmts : List Tok → List CStmt → Prop
  | nil : ParseStmts [] []
  | asg {x p e q r} : keyword x = false → Parse 6 p e → ParseStmts q r →
      ParseStmts (.id x :: .asg :: (p ++ .semi :: q)) (.asg x e :: r)
  | expr {p e q r} : (∀ s, p.head? = some (.id s) → keyword s = false) → Parse 6 p e → ParseStmts q r →
      ParseStmts (p ++ .semi :: q) (.expr e :: r)
  | block {p b q r} : ParseStmts p b → ParseStmts q r →
      ParseStmts (.lbrace :: (p ++ .rbrace :: q)) (.block b :: r)
  | ite {c e p b q r} : Parse 6 c e → ParseStmts p b → ParseStmts q r →
      ParseStmts (.id "if" :: .lpar :: (c ++ .rpar :: .lbrace :: (p ++ .rbrace :: q))) (.ite e b :: r)
  | loop {i init t test s y st p b q r} : ParseInit i init → ParseTest t test → ParseStep s y st →
      ParseStmts p b → ParseStmts q r →
      ParseStmts (.id "for" :: .lpar :: (i ++ .semi :: (t ++ .semi :: (s ++ .rpar :: .lbrace ::
        (p ++ .rbrace :: q))))) (.loop init test y st b :: r)

/-- A call of a statement macro: name and argument values. -/
structure CEvent where
  name : String
  args : List Int
  deriving DecidableEq, Repr

/-- The event of an expression statement, if it is a call. -/
def callEvent (env : Env) : CExpr → Option CEvent
  | .call f args => some ⟨f, CExpr.evals env args⟩
  | _ => none

mutual
/-- Execution of statements: environment before, calls made, environment after. -/
inductive Run : List CStmt → Env → List CEvent → Env → Prop
  | nil (env) : Run [] env [] env
  | asg {x e rest env tr env'} : Run rest (Function.update env x (e.eval env)) tr env' →
      Run (.asg x e :: rest) env tr env'
  | expr {e rest env ev tr env'} : callEvent env e = some ev → Run rest env tr env' →
      Run (.expr e :: rest) env (ev :: tr) env'
  | block {body rest env t1 env1 t2 env2} : Run body env t1 env1 → Run rest env1 t2 env2 →
      Run (.block body :: rest) env (t1 ++ t2) env2
  | iteT {c body rest env t1 env1 t2 env2} : c.eval env ≠ 0 → Run body env t1 env1 →
      Run rest env1 t2 env2 → Run (.ite c body :: rest) env (t1 ++ t2) env2
  | iteF {c body rest env tr env'} : c.eval env = 0 → Run rest env tr env' →
      Run (.ite c body :: rest) env tr env'
  | loopI {x e test y step body rest env t1 env1 t2 env2} :
      RunLoop test y step body (Function.update env x (e.eval env)) t1 env1 →
      Run rest env1 t2 env2 →
      Run (.loop (some (x, e)) test y step body :: rest) env (t1 ++ t2) env2
  | loopN {test y step body rest env t1 env1 t2 env2} :
      RunLoop test y step body env t1 env1 → Run rest env1 t2 env2 →
      Run (.loop none test y step body :: rest) env (t1 ++ t2) env2
/-- The iterations, from the test on; a missing test is true. -/
inductive RunLoop : Option CExpr → String → CExpr → List CStmt → Env → List CEvent → Env → Prop
  | done {c y step body env} : CExpr.eval env c = 0 → RunLoop (some c) y step body env [] env
  | iter {test y step body env t1 env1 t2 env2} : (∀ c, test = some c → CExpr.eval env c ≠ 0) →
      Run body env t1 env1 →
      RunLoop test y step body (Function.update env1 y (env1 y + step.eval env1)) t2 env2 →
      RunLoop test y step body env (t1 ++ t2) env2
end

end Verif.CText
