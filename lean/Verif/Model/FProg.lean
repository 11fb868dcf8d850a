import Verif.Model.FText

/-!
# The part of Fortran that printed programs are written in

Specification side, independent of the printer.  Free source form: a statement is a line, blanks separate
words.  Read are assignments, `DO` with `END DO`, `IF (...) THEN` with `END IF`, and calls.  Calls are written
without `CALL`; they are taken to be uses of macros, as in C.  Words have no case.  The values of
expressions are those of `FText`.
-/

namespace Verif.FProg
open Verif.CText Verif.FReal Verif.FText

/-! ## Lines -/

/-- The lines of a text; `cur` is what was read of the present line. -/
def splitGo : List Char → List Char → List (List Char)
  | cur, [] => if cur = [] then [] else [cur]
  | cur, c :: cs => if c = '\n' then cur :: splitGo [] cs else splitGo (cur ++ [c]) cs

/-- The operator `.AND.` as a token of two characters. -/
def unAnd : List Char → List Char
  | '.' :: 'A' :: 'N' :: 'D' :: '.' :: cs => '&' :: '&' :: unAnd cs
  | c :: cs => c :: unAnd cs
  | [] => []

/-- The tokens of a line. -/
def lexLine (cs : List Char) : Option (List Tok) := if '&' ∈ cs then none else lex (unAnd cs)

/-- The tokens of some lines. -/
def lexLines : List (List Char) → Option (List (List Tok))
  | [] => some []
  | l :: ls => (lexLine l).bind fun t => (lexLines ls).map fun ts => t :: ts

/-- The tokens of the lines of a text. -/
def lines (cs : List Char) : Option (List (List Tok)) := lexLines (splitGo [] cs)

/-! ## Conditions -/

/-- Conditions. -/
inductive FCond
  | rel (o : BOp) (a b : CExpr)
  | and (c d : FCond)

/-- The comparison a token stands for. -/
def relOf : Tok → Option BOp
  | .le => some .le
  | .ge => some .ge
  | .eqeq => some .eq
  | _ => none

mutual
/-- A conjunction (Fortran 2018, R1013-R1016). -/
inductive Log : List Tok → FCond → List Tok → Prop
  | mk {ts a r c r'} : LogPrim ts a r → LogRest a r c r' → Log ts c r'
/-- Further operands. -/
inductive LogRest : FCond → List Tok → FCond → List Tok → Prop
  | stop {a r} : r.head? ≠ some .andand → LogRest a r a r
  | and {a ts b r c r'} : LogPrim ts b r → LogRest (.and a b) r c r' → LogRest a (.andand :: ts) c r'
/-- A comparison (R1012) or a condition in parentheses. -/
inductive LogPrim : List Tok → FCond → List Tok → Prop
  | rel {ts a t r o b r'} : Exp ts a (t :: r) → relOf t = some o → Exp r b r' → LogPrim ts (.rel o a b) r'
  | paren {ts c r} : Log ts c (.rpar :: r) → LogPrim (.lpar :: ts) c r
end

/-- The integer value of an expression, if it has one. -/
def intVal (rnd : ℚ → ℚ) (env : String → Int) (e : CExpr) : Option Int :=
  match value rnd env e with
  | some (.int n) => some n
  | _ => none

/-- The values of arguments. -/
def intVals (rnd : ℚ → ℚ) (env : String → Int) : List CExpr → Option (List Int)
  | [] => some []
  | e :: es => (intVal rnd env e).bind fun v => (intVals rnd env es).map fun vs => v :: vs

/-- A comparison of integers. -/
def relVal : BOp → Int → Int → Option Bool
  | .le, a, b => some (decide (a ≤ b))
  | .ge, a, b => some (decide (b ≤ a))
  | .eq, a, b => some (decide (a = b))
  | _, _, _ => none

/-- The truth of a condition.  Both operands of a conjunction must have a value. -/
def truth (rnd : ℚ → ℚ) (env : String → Int) : FCond → Option Bool
  | .rel o a b => (intVal rnd env a).bind fun x => (intVal rnd env b).bind fun y => relVal o x y
  | .and c d => (truth rnd env c).bind fun x => (truth rnd env d).map fun y => x && y

/-! ## Statements -/

/-- Statements. -/
inductive FStmt
  | asg (x : String) (e : CExpr)
  | call (f : String) (args : List CExpr)
  | ite (c : FCond) (body : List FStmt)
  | loop (x : String) (lb ub : CExpr) (step : Option CExpr) (body : List FStmt)

/-- A line of two words, in any case. -/
def twoWords (a b : String) : List Tok → Bool
  | [.id x, .id y] => decide (fold x = a) && decide (fold y = b)
  | _ => false

/-- A line that ends a body. -/
def closing (l : List Tok) : Bool := twoWords "end" "do" l || twoWords "end" "if" l

/-- A line with `DO` (Fortran 2018, R1123). -/
inductive DoLine : List Tok → String → CExpr → CExpr → Option CExpr → Prop
  | unit {d x ts lb r ub} : fold d = "do" → Exp ts lb (.comma :: r) → Exp r ub [] →
      DoLine (.id d :: .id x :: .asg :: ts) x lb ub none
  | step {d x ts lb r ub r' st} : fold d = "do" → Exp ts lb (.comma :: r) → Exp r ub (.comma :: r') →
      Exp r' st [] → DoLine (.id d :: .id x :: .asg :: ts) x lb ub (some st)

/-- A line with `IF` and `THEN` (R1135). -/
inductive IfLine : List Tok → FCond → Prop
  | mk {i th ts c} : fold i = "if" → fold th = "then" → Log ts c [.rpar, .id th] → IfLine (.id i :: .lpar :: ts) c

/-- A line with a call. -/
inductive CallLine : List Tok → String → List CExpr → Prop
  | none {f} : fold f ≠ "if" → CallLine [.id f, .lpar, .rpar] f []
  | args {f ts es} : fold f ≠ "if" → Args ts es [.rpar] → CallLine (.id f :: .lpar :: ts) f es

/-- The grammar of statements: lines, statements, lines that remain. -/
inductive Parse : List (List Tok) → List FStmt → List (List Tok) → Prop
  | stop {ls} : (∀ l, ls.head? = some l → closing l = true) → Parse ls [] ls
  | blank {ls p r} : Parse ls p r → Parse ([] :: ls) p r
  | asg {x ts e ls p r} : Exp ts e [] → Parse ls p r → Parse ((.id x :: .asg :: ts) :: ls) (.asg x e :: p) r
  | call {l f es ls p r} : CallLine l f es → Parse ls p r → Parse (l :: ls) (.call f es :: p) r
  | ite {l c ls b e r p r'} : IfLine l c → Parse ls b (e :: r) → twoWords "end" "if" e = true → Parse r p r' →
      Parse (l :: ls) (.ite c b :: p) r'
  | loop {l x lb ub st ls b e r p r'} : DoLine l x lb ub st → Parse ls b (e :: r) → twoWords "end" "do" e = true →
      Parse r p r' → Parse (l :: ls) (.loop x lb ub st b :: p) r'

/-- The text is a program. -/
def Program (cs : List Char) (p : List FStmt) : Prop := ∃ ls, lines cs = some ls ∧ Parse ls p []

/-! ## Execution -/

/-- The value of the step of a loop. -/
def stepVal (rnd : ℚ → ℚ) (env : String → Int) : Option CExpr → Option Int
  | none => some 1
  | some e => intVal rnd env e

mutual
/-- Execution of statements: variables before, calls made, variables after.  Variables are known by their
    names without case. -/
inductive Run (rnd : ℚ → ℚ) : List FStmt → (String → Int) → List CEvent → (String → Int) → Prop
  | nil (env) : Run rnd [] env [] env
  | asg {x e rest env v tr env'} : intVal rnd env e = some v → Run rnd rest (Function.update env (fold x) v) tr env' →
      Run rnd (.asg x e :: rest) env tr env'
  | call {f es rest env vs tr env'} : intVals rnd env es = some vs → Run rnd rest env tr env' →
      Run rnd (.call f es :: rest) env (⟨f, vs⟩ :: tr) env'
  | iteT {c body rest env t1 env1 t2 env2} : truth rnd env c = some true → Run rnd body env t1 env1 →
      Run rnd rest env1 t2 env2 → Run rnd (.ite c body :: rest) env (t1 ++ t2) env2
  | iteF {c body rest env tr env'} : truth rnd env c = some false → Run rnd rest env tr env' →
      Run rnd (.ite c body :: rest) env tr env'
  | loop {x lb ub st body rest env a b s t1 env1 t2 env2} : intVal rnd env lb = some a → intVal rnd env ub = some b →
      stepVal rnd env st = some s → s ≠ 0 →
      RunDo rnd (fold x) s body ((b - a + s).tdiv s).toNat (Function.update env (fold x) a) t1 env1 →
      Run rnd rest env1 t2 env2 → Run rnd (.loop x lb ub st body :: rest) env (t1 ++ t2) env2
/-- A number of iterations, fixed before the first one (Fortran 2018, 11.1.7.4.1).  The variable of a loop
    must not be changed in its body (11.1.7.4.3). -/
inductive RunDo (rnd : ℚ → ℚ) : String → Int → List FStmt → Nat → (String → Int) → List CEvent → (String → Int) → Prop
  | done {x s body env} : RunDo rnd x s body 0 env [] env
  | iter {x s body n env t1 env1 t2 env2} : Run rnd body env t1 env1 → env1 x = env x →
      RunDo rnd x s body n (Function.update env1 x (env1 x + s)) t2 env2 →
      RunDo rnd x s body (n + 1) env (t1 ++ t2) env2
end

end Verif.FProg
