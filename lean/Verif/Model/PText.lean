import Verif.Model.PPrint

/-!
# The printer, character by character

Model of source/pprint.c:92-680 with both languages, OpenScop bodies, and the parallelisation and timing
fields of loops.  `Model.PPrint` is the part that is C without these; `Props.PText` shows that the two
agree there.
-/

namespace Verif.PText
open Verif.Clast Verif.ClastGen Verif.PPrint

/-- `options->language` (include/cloog/options.h, CLOOG_LANGUAGE_C and CLOOG_LANGUAGE_FORTRAN). -/
inductive Lang | c | fortran
  deriving DecidableEq, Repr

/-- The characters of a literal. -/
@[irreducible] def lit (s : String) : List Char := s.toList

/-! ## Expressions -/

/-- `cloog_int_print` (include/cloog/int.h.in:143, 87). -/
def intC (n : Int) : List Char :=
  if n < 0 then '-' :: decChars (n.natAbs + 1) n.natAbs else decChars (n.natAbs + 1) n.natAbs

/-- The coefficient of a variable (source/pprint.c:108-114). -/
def coefC (c : Int) : List Char := if c = 1 then [] else if c = -1 then ['-'] else intC c ++ ['*']

/-- Parentheses if asked for (source/pprint.c:115-119). -/
def parenC (g : Bool) (cs : List Char) : List Char := if g then '(' :: (cs ++ [')']) else cs

/-- The strings around the operands of a binary expression (source/pprint.c:149-188). -/
def binC (l : Lang) (t : BinType) (g : Bool) : List Char × List Char × List Char :=
  match l with
  | .fortran =>
    match t with
    | .fdiv => (lit "FLOOR(REAL(", lit ")/REAL(", lit "))")
    | .cdiv => (lit "CEILING(REAL(", lit ")/REAL(", lit "))")
    | .div => if g then (['('], [')', '/'], []) else ([], ['/'], [])
    | .mod => (lit "MOD(", lit ", ", lit ")")
  | .c =>
    match t with
    | .fdiv => (lit "floord(", lit ",", lit ")")
    | .cdiv => (lit "ceild(", lit ",", lit ")")
    | .div => if g then (['('], [')', '/'], []) else ([], ['/'], [])
    | .mod => if g then (['('], [')', '%'], []) else ([], ['%'], [])

/-- The name of a minimum or maximum with its parenthesis (source/pprint.c:201, 214). -/
def mmC (l : Lang) (t : RedType) : List Char :=
  match l with
  | .fortran => match t with | .max => lit "MAX(" | _ => lit "MIN("
  | .c => match t with | .max => lit "max(" | _ => lit "min("

/-- What is printed before the first operand of a minimum or maximum with `n` others
    (source/pprint.c:201, 213-214). -/
def mmOpen (l : Lang) (t : RedType) (n : Nat) : List Char :=
  match l with
  | .fortran => if n = 0 then [] else mmC l t
  | .c => (List.replicate n (mmC l t)).flatten

/-- What is printed after the last operand (source/pprint.c:207). -/
def mmClose (l : Lang) (n : Nat) : List Char :=
  match l with
  | .fortran => if n = 0 then [] else [')']
  | .c => []

/-- What is printed after each operand but the first (source/pprint.c:220). -/
def mmAfter (l : Lang) : List Char :=
  match l with
  | .fortran => []
  | .c => [')']

mutual
/-- `pprint_expr`, `pprint_term`, `pprint_binary`, `pprint_reduction` (source/pprint.c:103-123, 144-266).
    That a sum has an operand is an assertion of the code. -/
def exprC (l : Lang) : Expr → List Char
  | .name s => s.toList
  | .cst c => intC c
  | .term c v => coefC c ++ parenC (group v) (exprC l v)
  | .bin t lhs rhs => (binC l t (group lhs)).1 ++ (exprC l lhs ++ ((binC l t (group lhs)).2.1 ++
      (intC rhs ++ (binC l t (group lhs)).2.2)))
  | .red _ [] => []
  | .red .sum (e :: es) => exprC l e ++ sumC l es
  | .red t (e :: es) => mmOpen l t es.length ++ (exprC l e ++ (opsC l es ++ mmClose l es.length))
/-- The operands of a sum after the first (source/pprint.c:134-141); assertions as in `printSum`. -/
def sumC (l : Lang) : List Expr → List Char
  | [] => []
  | e :: es => (if 0 < coef e then ['+'] else []) ++ (exprC l e ++ sumC l es)
/-- The operands of a minimum or maximum after the first (source/pprint.c:203-206, 217-221). -/
def opsC (l : Lang) : List Expr → List Char
  | [] => []
  | e :: es => ',' :: (exprC l e ++ (mmAfter l ++ opsC l es))
end

/-! ## Statements -/

/-- `struct clast_for`: parallelisation and timing fields (include/cloog/clast.h:34-38, 109-118).  They
    are set by `annotate_loops` (source/program.c:463-530) or by users of the library. -/
structure Attr where
  omp : Bool := false
  mpi : Bool := false
  vec : Bool := false
  user : Bool := false
  privateVars : Option String := none
  reductionVars : Option String := none
  timeVar : Option String := none
  directive : Option String := none

/-- A statement of the clast with everything the printer reads; substitutions may have a left-hand
    side. -/
inductive PStmt
  | root
  | ass (lhs : Option String) (rhs : Expr)
  | user (number : Nat) (args : List (Option String × Expr))
  | block (body : List PStmt)
  | guard (eqs : List Eqn) (body : List PStmt)
  | for_ (it : String) (lb ub : Option Expr) (stride : Int) (attr : Attr) (body : List PStmt)

/-- A line of an annotation of an OpenScop statement: pragma, user text. -/
structure ALine where
  pragma : Bool
  user : Bool
  text : String

/-- A printable OpenScop body: annotation lines, and the expression with `@k@` for the iterators (as made
    by `osl_util_identifier_substitution`, outside the project). -/
structure Body where
  pre : List ALine
  expr : List Char
  post : List ALine

/-- What the printer knows: language, `callable`, names given to statements, OpenScop bodies. -/
structure Cfg where
  lang : Lang
  callable : Bool
  name : Nat → Option String
  body : Nat → Option Body

/-- `"S%d"`. -/
def defName (k : Nat) : List Char := 'S' :: intC k

/-- Spaces (`fprintf(dst, "%*s", indent, "")`). -/
def indC (n : Nat) : List Char := List.replicate n ' '

/-- `pprint_assignment` (source/pprint.c:280-286). -/
def assC (l : Lang) : Option String × Expr → List Char
  | (some x, e) => x.toList ++ (lit " = " ++ exprC l e)
  | (none, e) => exprC l e

/-- `pprint_parentheses_are_safer` (source/pprint.c:388-402). -/
def saferA : Option String × Expr → Bool
  | (some _, _) => false
  | (none, e) => safer e

/-- The arguments of a statement (source/pprint.c:421-437). -/
def argsC (l : Lang) : List (Option String × Expr) → List Char
  | [] => []
  | [a] => parenC (saferA a) (assC l a)
  | a :: as => parenC (saferA a) (assC l a) ++ ',' :: argsC l as

/-- Annotation lines (source/pprint.c:326-334, 357-365). -/
def linesC : List ALine → List Char
  | [] => []
  | a :: as => (if a.pragma then lit "#pragma " else []) ++
      ((if a.user then a.text.toList ++ ['\n'] else []) ++ linesC as)

/-- White space for `sscanf`. -/
def isWs (c : Char) : Bool := c == ' ' || c == '\n' || c == '\t' || c == '\r' || c == '\x0b' || c == '\x0c'

/-- `%d` of `sscanf`: white space, a sign, digits.  Numbers beyond `int` are not treated. -/
def scanD (cs : List Char) : Option Int :=
  let cs := cs.dropWhile isWs
  let (neg, cs) := match cs with
    | '-' :: r => (true, r)
    | '+' :: r => (false, r)
    | r => (false, r)
  let ds := cs.takeWhile Char.isDigit
  if ds = [] then none
  else some (if neg then - (Verif.CText.digitsVal ds : Int) else Verif.CText.digitsVal ds)

/-- The loop over the body expression (source/pprint.c:338-351): at an `@`, `sscanf` reads the number of
    the iterator and the pointer advances by the number of conversions (1) plus 2.  `none` for undefined
    behaviour: no number there, no such substitution, or the pointer passes the end.  The fuel is the
    length of the text. -/
def bodyGo (l : Lang) (args : List (Option String × Expr)) : Nat → List Char → Option (List Char)
  | _, [] => some []
  | 0, _ :: _ => none
  | fuel + 1, c :: cs =>
    if c = '@' then
      match scanD cs with
      | none => none
      | some k =>
        match args[k.toNat]? with
        | none => none
        | some a =>
          if cs.length < 2 then none
          else (bodyGo l args fuel (cs.drop 2)).map fun r => assC l a ++ r
    else (bodyGo l args fuel cs).map fun r => c :: r

/-- `pprint_osl_body` for a statement with a body (source/pprint.c:299-379). -/
def bodyC (l : Lang) (args : List (Option String × Expr)) (b : Body) : Option (List Char) :=
  (bodyGo l args b.expr.length b.expr).map fun t => linesC b.pre ++ (t ++ '\n' :: linesC b.post)

/-- The end of an assignment or call (source/pprint.c:439-442, 660-662). -/
def endC : Lang → List Char
  | .fortran => ['\n']
  | .c => [';', '\n']

/-- The name of a statement (source/pprint.c:410-419). -/
def callName (f : Cfg) (k : Nat) : List Char :=
  if f.callable then defName k else match f.name k with | some n => n.toList | none => defName k

/-- A call (source/pprint.c:411-442). -/
def callC (f : Cfg) (k : Nat) (args : List (Option String × Expr)) : List Char :=
  callName f k ++ ('(' :: (argsC f.lang args ++ (')' :: endC f.lang)))

/-- `pprint_user_stmt` (source/pprint.c:404-443). -/
def userC (f : Cfg) (k : Nat) (args : List (Option String × Expr)) : Option (List Char) :=
  if f.callable then some (callC f k args)
  else
    match f.body k with
    | some b => bodyC f.lang args b
    | none => some (callC f k args)

/-- `pprint_equation` (source/pprint.c:268-278). -/
def eqnC (l : Lang) (q : Eqn) : List Char :=
  exprC l q.lhs ++ ((if q.sign = 0 then lit " == " else if 0 < q.sign then lit " >= " else lit " <= ") ++
    exprC l q.rhs)

/-- The conjunction (source/pprint.c:457-460). -/
def andC : Lang → List Char
  | .fortran => lit " .AND. "
  | .c => lit " && "

/-- The equations after the first (source/pprint.c:455-465). -/
def eqnsC (l : Lang) : List Eqn → List Char
  | [] => []
  | q :: qs => andC l ++ (('(' :: (eqnC l q ++ [')'])) ++ eqnsC l qs)

/-- The condition of a guard (source/pprint.c:453-466). -/
def condC (l : Lang) : List Eqn → List Char
  | [] => []
  | q :: qs => parenC (decide (0 < qs.length)) (('(' :: (eqnC l q ++ [')'])) ++ eqnsC l qs)

/-- `name=expr;` and a new line, before a parallel loop (source/pprint.c:492-502 and so on). -/
def setC (x : String) : Option Expr → List Char
  | none => []
  | some e => x.toList ++ ('=' :: (exprC .c e ++ [';', '\n']))

/-- The two assignments before a parallel loop. -/
def boundsC (indent : Nat) (l u : String) (lb ub : Option Expr) : List Char :=
  setC l lb ++ (match ub with | none => [] | some e => indC indent ++ setC u (some e))

/-- ` word(vars)` (source/pprint.c:503-511 and so on). -/
def clauseC (word : String) : Option String → List Char
  | none => []
  | some v => word.toList ++ (v.toList ++ [')'])

/-- The clauses of an OpenMP pragma. -/
def clausesC (a : Attr) : List Char :=
  clauseC " private(" a.privateVars ++ (clauseC " reduction(" a.reductionVars ++ ['\n'])

/-- Start of the time measurement (source/pprint.c:486-489). -/
def timeStart : Option String → List Char
  | some t => lit "IF_TIME(" ++ (t.toList ++ lit "_start = cloog_util_rtclock());\n")
  | none => []

/-- End of the time measurement (source/pprint.c:640-644). -/
def timeEnd : Option String → List Char
  | some t => lit "IF_TIME(" ++ (t.toList ++ (lit " += cloog_util_rtclock() - " ++ (t.toList ++ lit "_start);\n")))
  | none => []

/-- The directive of the user or the default one (source/pprint.c:504). -/
def directiveC : Option String → List Char
  | some d => d.toList
  | none => lit "omp parallel for"

/-- What is printed before `for` in C (source/pprint.c:485-579). -/
def beforeC (indent : Nat) (lb ub : Option Expr) (a : Attr) : List Char :=
  timeStart a.timeVar ++
  ((if a.omp && a.user && !a.mpi then
      boundsC indent "lbp" "ubp" lb ub ++ (lit "#pragma " ++ (directiveC a.directive ++ (clausesC a ++ indC indent)))
    else []) ++
  ((if a.omp && !a.mpi && !a.user then
      boundsC indent "lbp" "ubp" lb ub ++ (lit "#pragma omp parallel for" ++ (clausesC a ++ indC indent))
    else []) ++
  ((if a.vec && !a.omp && !a.mpi then
      boundsC indent "lbv" "ubv" lb ub ++ (indC indent ++ (lit "#pragma ivdep\n" ++ (indC indent ++
        (lit "#pragma vector always\n" ++ indC indent))))
    else []) ++
  (if a.mpi then
      boundsC indent "_lb_dist" "_ub_dist" lb ub ++ (indC indent ++
        (lit "polyrt_loop_dist(_lb_dist, _ub_dist, nprocs, my_rank, &lbp, &ubp);\n" ++
        ((if a.omp then lit "#pragma omp parallel for" ++ clausesC a else []) ++ indC indent)))
    else []))))

/-- A bound in the header of a loop (source/pprint.c:588-594, 607-613). -/
def boundC (l : Lang) (a : Attr) (par vec : String) (e : Expr) : List Char :=
  if a.omp || a.mpi then par.toList else if a.vec then vec.toList else exprC l e

/-- The first bound in the header (source/pprint.c:586-594). -/
def initC (l : Lang) (it : String) (a : Attr) : Option Expr → List Char
  | some e => it.toList ++ ('=' :: boundC l a "lbp" "lbv" e)
  | none => []

/-- The second bound (source/pprint.c:603-613). -/
def testC (l : Lang) (it : String) (a : Attr) : Option Expr → List Char
  | some e => (if l = .fortran then [] else it.toList ++ lit "<=") ++ boundC l a "ubp" "ubv" e
  | none => []

/-- The stride, and the end of the header (source/pprint.c:617-629). -/
def stepC (l : Lang) (it : String) (stride : Int) : List Char :=
  match l with
  | .fortran => (if 1 < stride then intC stride else []) ++ ['\n']
  | .c => if 1 < stride then ';' :: (it.toList ++ (lit "+=" ++ (intC stride ++ lit ") {\n")))
      else ';' :: (it.toList ++ lit "++) {\n")

/-- The words of a loop (source/pprint.c:581-584, 598-601, 633-637). -/
def forC : Lang → List Char × List Char × List Char
  | .fortran => (lit "DO ", lit ", ", lit "END DO\n")
  | .c => (lit "for (", lit ";", lit "}\n")

/-- The header of a loop (source/pprint.c:581-629).  A missing bound in Fortran stops the program; see
    `dies`. -/
def headC (l : Lang) (it : String) (lb ub : Option Expr) (stride : Int) (a : Attr) : List Char :=
  (forC l).1 ++ (initC l it a lb ++ ((forC l).2.1 ++ (testC l it a ub ++ stepC l it stride)))

/-- What is printed after the loop (source/pprint.c:633-645). -/
def afterC (l : Lang) (a : Attr) : List Char :=
  (forC l).2.2 ++ (if l = .c then timeEnd a.timeVar else [])

/-- The start of a guard and its end (source/pprint.c:449-452, 467-470, 475-479). -/
def ifC : Lang → List Char × List Char × List Char
  | .fortran => (lit "IF ", lit " THEN\n", lit "END IF\n")
  | .c => (lit "if ", lit " {\n", lit "}\n")

/-- Put two parts together; `none` is undefined behaviour. -/
def cat : Option (List Char) → Option (List Char) → Option (List Char)
  | some a, some b => some (a ++ b)
  | _, _ => none

mutual
/-- `pprint_stmt_list` (source/pprint.c:648-680). -/
def stmtsC (f : Cfg) (indent : Nat) : List PStmt → Option (List Char)
  | [] => some []
  | s :: rest => cat (stmtC f indent rest.isEmpty s) (stmtsC f indent rest)
/-- One statement; `last` if it is the last of the list (source/pprint.c:651-678; `pprint_guard` 445-480,
    `pprint_for` 482-646). -/
def stmtC (f : Cfg) (indent : Nat) (last : Bool) : PStmt → Option (List Char)
  | .root => some (if f.callable && last then indC indent ++ lit "S0\n" else [])
  | .ass x e => some (indC indent ++ (assC f.lang (x, e) ++ endC f.lang))
  | .user k args => (userC f k args).map fun t => indC indent ++ t
  | .block body => (stmtsC f (indent + indentStep) body).map fun t =>
      indC indent ++ (lit "{\n" ++ (t ++ (indC indent ++ lit "}\n")))
  | .guard eqs body => (stmtsC f (indent + indentStep) body).map fun t =>
      indC indent ++ ((ifC f.lang).1 ++ (condC f.lang eqs ++ ((ifC f.lang).2.1 ++ (t ++ (indC indent ++
        (ifC f.lang).2.2)))))
  | .for_ it lb ub stride a body => (stmtsC f (indent + indentStep) body).map fun t =>
      indC indent ++ ((if f.lang = .c then beforeC indent lb ub a else []) ++
        (headC f.lang it lb ub stride a ++ (t ++ (indC indent ++ afterC f.lang a))))
end

mutual
/-- A loop without a bound, in Fortran (source/pprint.c:595-596, 614-615: `cloog_die`). -/
def dies : PStmt → Bool
  | .root | .ass _ _ | .user _ _ => false
  | .block b => diess b
  | .guard _ b => diess b
  | .for_ _ lb ub _ _ b => lb.isNone || ub.isNone || diess b
/-- Some statement of a list. -/
def diess : List PStmt → Bool
  | [] => false
  | s :: ss => dies s || diess ss
end

/-- `clast_pprint` (source/pprint.c:687-691): the text, or `none` if the program stops or has undefined
    behaviour before all is printed. -/
def pprint (f : Cfg) (indent : Nat) (ss : List PStmt) : Option (List Char) :=
  if f.lang = .fortran ∧ diess ss = true then none else stmtsC f indent ss

end Verif.PText
