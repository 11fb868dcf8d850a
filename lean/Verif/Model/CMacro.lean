import Verif.Model.CText

/-!
# Macros with arguments, and the part of C that their bodies are written in

Specification side: expressions with comparisons and the conditional operator (C11, 6.5.8 and 6.5.15) on top of
what printed programs use, and replacement of function-like macros in a list of tokens (6.10.3).  There are no
calls left after replacement: all names that are followed by a parenthesis are macros.
-/

namespace Verif.CMacro
open Verif.IntOps Verif.Clast Verif.CText

/-! ## Tokens -/

/-- Tokens. -/
inductive XTok
  | t (t : Tok)
  | lt | gt | quest | colon
  deriving DecidableEq

/-- Tokens of one character. -/
def xsingle (c : Char) : Option XTok :=
  if c == '<' then some .lt else if c == '>' then some .gt else if c == '?' then some .quest
  else if c == ':' then some .colon else (single c).map .t

/-- Pairs of characters that are read together, and so are not two tokens. -/
def xdouble (c d : Char) : Bool :=
  (double c d).isSome || (c == '<' && (d == '<' || d == ':' || d == '%')) || (c == '>' && d == '>') ||
    (c == ':' && d == '>')

/-- Tokens one after the other. -/
def xput : Option (List XTok) → Option (List XTok) → Option (List XTok)
  | some a, some b => some (a ++ b)
  | _, _ => none

/-- The token spelled by some word characters, if any. -/
def xword (w : List Char) : Option (List XTok) := (word w).map (List.map .t)

/-- The tokens of a text without tokens of two characters; `w` are the word characters read so far. -/
def xlexGo : List Char → List Char → Option (List XTok)
  | w, [] => xword w
  | w, c :: cs =>
    if wordChar c then xlexGo (w ++ [c]) cs
    else if isSpace c then xput (xword w) (xlexGo [] cs)
    else if (match cs with | [] => false | d :: _ => xdouble c d) then none
    else xput (xword w) (xput ((xsingle c).map fun t => [t]) (xlexGo [] cs))

/-- The tokens of a text. -/
def xlex (cs : List Char) : Option (List XTok) := xlexGo [] cs

/-! ## Expressions -/

/-- Binary operators. -/
inductive XOp | b (o : BOp) | lt | gt
  deriving DecidableEq

/-- Precedence, from 2 (tightest) to 6. -/
def XOp.level : XOp → Nat
  | .b o => o.level
  | .lt | .gt => 4

/-- The operator a token stands for between two operands. -/
def XTok.bop : XTok → Option XOp
  | .t u => (Tok.bop u).map .b
  | .lt => some .lt
  | .gt => some .gt
  | _ => none

/-- Syntax trees. -/
inductive XExpr
  | num (n : Nat)
  | var (s : String)
  | neg (e : XExpr)
  | bin (o : XOp) (a b : XExpr)
  | cond (c a b : XExpr)

/-- Value of a binary operation. -/
def XOp.eval : XOp → Int → Int → Int
  | .b o, x, y => o.eval x y
  | .lt, x, y => ofBool (decide (x < y))
  | .gt, x, y => ofBool (decide (y < x))

/-- Value of an expression. -/
def XExpr.eval (env : Env) : XExpr → Int
  | .num n => n
  | .var s => env s
  | .neg e => - e.eval env
  | .bin o a b => o.eval (a.eval env) (b.eval env)
  | .cond c a b => if c.eval env ≠ 0 then a.eval env else b.eval env

/-- The grammar of expressions: levels as for printed programs, and 7 for the conditional operator. -/
inductive XParse : Nat → List XTok → XExpr → Prop
  | num (n) : XParse 0 [.t (.num n)] (.num n)
  | var (s) : XParse 0 [.t (.id s)] (.var s)
  | paren {p e} : XParse 7 p e → XParse 0 (.t .lpar :: (p ++ [.t .rpar])) e
  | neg {p e} : XParse 1 p e → XParse 1 (.t .minus :: p) (.neg e)
  | lift {k p e} : k < 7 → XParse k p e → XParse (k + 1) p e
  | bin {k p a q b t o} : XTok.bop t = some o → o.level = k + 1 → XParse (k + 1) p a → XParse k q b →
      XParse (k + 1) (p ++ t :: q) (.bin o a b)
  | cond {p c q a r b} : XParse 6 p c → XParse 7 q a → XParse 7 r b →
      XParse 7 (p ++ .quest :: (q ++ .colon :: r)) (.cond c a b)

/-! ## Replacement of macros -/

/-- A function-like macro: parameters and body. -/
structure XMacro where
  params : List String
  body : List XTok
  deriving DecidableEq

/-- The arguments of a macro, from behind the opening parenthesis: they end at commas that are not inside of
    further parentheses.  Depth, and tokens of the argument so far. -/
def takeArgs : Nat → List Tok → List Tok → Option (List (List Tok) × List Tok)
  | _, _, [] => none
  | d, cur, t :: ts =>
    if t = .lpar then takeArgs (d + 1) (cur ++ [t]) ts
    else if t = .rpar then
      match d with
      | 0 => some ([cur], ts)
      | d + 1 => takeArgs d (cur ++ [t]) ts
    else if t = .comma && d == 0 then (takeArgs 0 [] ts).map fun r => (cur :: r.1, r.2)
    else takeArgs d (cur ++ [t]) ts

/-- Replace parameters by arguments. -/
def substToks (σ : List (String × List XTok)) (body : List XTok) : List XTok :=
  body.flatMap fun
    | .t (.id s) => (σ.lookup s).getD [.t (.id s)]
    | t => [t]

/-- The first tokens are a macro and an opening parenthesis. -/
def callOf (M : String → Option XMacro) : List Tok → Option (XMacro × List Tok)
  | .id f :: .lpar :: ts => (M f).map fun m => (m, ts)
  | _ => none

/-- Replacement of macros.  Arguments are replaced completely before they are put into the body.  (The body is
    not scanned again: no name in the bodies is a macro.)  The number bounds the number of tokens. -/
def expandGo (M : String → Option XMacro) : Nat → List Tok → Option (List XTok)
  | _, [] => some []
  | 0, _ :: _ => none
  | n + 1, t :: ts =>
    match callOf M (t :: ts) with
    | none => (expandGo M n ts).map fun r => .t t :: r
    | some (m, ts') =>
      match takeArgs 0 [] ts' with
      | none => none
      | some (as, rest) =>
        if as.length = m.params.length then
          match as.mapM (expandGo M n), expandGo M n rest with
          | some as', some r => some (substToks (m.params.zip as') m.body ++ r)
          | _, _ => none
        else none

/-- Replacement of macros. -/
def expand (M : String → Option XMacro) (ts : List Tok) : Option (List XTok) := expandGo M ts.length ts

end Verif.CMacro
