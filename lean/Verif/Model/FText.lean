import Verif.Model.CText
import Verif.Model.FReal

/-!
# The part of Fortran that printed expressions are written in

Specification side, independent of the printer.  The characters that occur are cut into the same tokens
as in C.  The grammar is that of Fortran (Fortran 2018, 10.1.2, R1001-R1009) restricted to names,
unsigned numbers, parentheses, function references and the operators `+`, `-`, `*`, `/`: a sign stands
only at the start of an expression and applies to the whole first product, and two operators never
follow each other.  It is written as a reading from left to right, a relation between the tokens before
and after.  Upper and lower case letters of a name are not distinguished.  Integers are exact, reals have
`p` binary digits and are rounded to nearest.
-/

namespace Verif.FText
open Verif.CText Verif.FReal

/-! ## Grammar -/

mutual
/-- A primary. -/
inductive Prim : List Tok → CExpr → List Tok → Prop
  | num (n r) : Prim (.num n :: r) (.num n) r
  | var (s r) : r.head? ≠ some .lpar → Prim (.id s :: r) (.var s) r
  | paren {ts e r} : Exp ts e (.rpar :: r) → Prim (.lpar :: ts) e r
  | call {f ts es r} : Args ts es (.rpar :: r) → Prim (.id f :: .lpar :: ts) (.call f es) r
/-- A product. -/
inductive Prod : List Tok → CExpr → List Tok → Prop
  | mk {ts a r e r'} : Prim ts a r → ProdRest a r e r' → Prod ts e r'
/-- Further factors. -/
inductive ProdRest : CExpr → List Tok → CExpr → List Tok → Prop
  | stop {a r} : r.head? ≠ some .star → r.head? ≠ some .slash → ProdRest a r a r
  | mul {a ts b r e r'} : Prim ts b r → ProdRest (.bin .mul a b) r e r' → ProdRest a (.star :: ts) e r'
  | div {a ts b r e r'} : Prim ts b r → ProdRest (.bin .div a b) r e r' → ProdRest a (.slash :: ts) e r'
/-- An expression. -/
inductive Exp : List Tok → CExpr → List Tok → Prop
  | neg {ts a r e r'} : Prod ts a r → SumRest (.neg a) r e r' → Exp (.minus :: ts) e r'
  | pos {ts a r e r'} : Prod ts a r → SumRest a r e r' → Exp ts e r'
/-- Further terms. -/
inductive SumRest : CExpr → List Tok → CExpr → List Tok → Prop
  | stop {a r} : r.head? ≠ some .plus → r.head? ≠ some .minus → SumRest a r a r
  | add {a ts b r e r'} : Prod ts b r → SumRest (.bin .add a b) r e r' → SumRest a (.plus :: ts) e r'
  | sub {a ts b r e r'} : Prod ts b r → SumRest (.bin .sub a b) r e r' → SumRest a (.minus :: ts) e r'
/-- Arguments. -/
inductive Args : List Tok → List CExpr → List Tok → Prop
  | one {ts e r} : Exp ts e r → r.head? ≠ some .comma → Args ts [e] r
  | cons {ts e r es r'} : Exp ts e (.comma :: r) → Args r es r' → Args ts (e :: es) r'
end

/-! ## Values -/

/-- Integers and reals. -/
inductive Val
  | int (n : Int)
  | real (x : ℚ)

/-- A name without the case of its letters. -/
def fold (s : String) : String := String.ofList (s.toList.map Char.toLower)

/-- A binary operation, for operands of one type; integer division truncates. -/
def binVal (rnd : ℚ → ℚ) (o : BOp) : Val → Val → Option Val
  | .int a, .int b =>
    match o with
    | .add => some (.int (a + b))
    | .sub => some (.int (a - b))
    | .mul => some (.int (a * b))
    | .div => if b = 0 then none else some (.int (a.tdiv b))
    | _ => none
  | .real x, .real y =>
    match o with
    | .div => if y = 0 then none else some (.real (rnd (x / y)))
    | _ => none
  | _, _ => none

/-- The integers among values, if all are. -/
def ints : List Val → Option (List Int)
  | [] => some []
  | .int a :: vs => (ints vs).map fun l => a :: l
  | .real _ :: _ => none

/-- The largest (or smallest) of at least two numbers. -/
def extremum (f : Int → Int → Int) : List Int → Option Val
  | a :: b :: l => some (.int ((b :: l).foldl f a))
  | _ => none

/-- The functions that occur (Fortran 2018, 16.9: CEILING, FLOOR, MAX, MIN, MOD, REAL). -/
def callVal (rnd : ℚ → ℚ) (f : String) (vs : List Val) : Option Val :=
  if f = "REAL" then
    match vs with
    | [.int a] => some (.real (rnd a))
    | _ => none
  else if f = "FLOOR" then
    match vs with
    | [.real x] => some (.int ⌊x⌋)
    | _ => none
  else if f = "CEILING" then
    match vs with
    | [.real x] => some (.int ⌈x⌉)
    | _ => none
  else if f = "MOD" then
    match vs with
    | [.int a, .int b] => if b = 0 then none else some (.int (a.tmod b))
    | _ => none
  else if f = "MAX" then (ints vs).bind (extremum max)
  else if f = "MIN" then (ints vs).bind (extremum min)
  else none

mutual
/-- The value of an expression, if it has one. -/
def value (rnd : ℚ → ℚ) (env : String → Int) : CExpr → Option Val
  | .num n => some (.int n)
  | .var s => some (.int (env (fold s)))
  | .neg e =>
    match value rnd env e with
    | some (.int a) => some (.int (-a))
    | some (.real x) => some (.real (-x))
    | none => none
  | .bin o a b => (value rnd env a).bind fun x => (value rnd env b).bind fun y => binVal rnd o x y
  | .call f args => (values rnd env args).bind (callVal rnd f)
/-- The values of arguments. -/
def values (rnd : ℚ → ℚ) (env : String → Int) : List CExpr → Option (List Val)
  | [] => some []
  | e :: es => (value rnd env e).bind fun v => (values rnd env es).map fun vs => v :: vs
end

/-- The text is an expression, and the value of that expression is `v`. -/
def Means (rnd : ℚ → ℚ) (env : String → Int) (cs : List Char) (v : Int) : Prop :=
  ∃ ts e, lex cs = some ts ∧ Exp ts e [] ∧ value rnd env e = some (.int v)

end Verif.FText
