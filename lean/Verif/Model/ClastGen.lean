import Verif.Model.Bound

/-!
# Construction of the clast from a loop tree (source/clast.c:985-1943)

The C code threads a `struct clast_stmt ***next` pointing at the place where the next statement goes:
either after the last statement or inside the body of the last one.  Here the functions return what
they wrap around the code that follows (`List Stmt → List Stmt`), which is the same thing.
-/

namespace Verif.ClastGen

open Verif.IntOps Verif.Clast Verif.Bound

/-! ## Statements (include/cloog/clast.h) -/

/-- include/cloog/clast.h `struct clast_equation`: `LHS sign RHS` with sign `>0` for `>=`, `0` for
`==`, `<0` for `<=`. -/
structure Eqn where
  lhs : Expr
  rhs : Expr
  sign : Int
  deriving DecidableEq

/-- include/cloog/clast.h `struct clast_stmt` and its variants (root omitted). A list of statements
is a chain of `next` pointers. `user` carries the statement number and the substitution expressions.
The `domain`, parallelisation and timing fields of for loops and user statements are omitted. -/
inductive Stmt
  | ass (lhs : String) (rhs : Expr)
  | user (number : Nat) (args : List Expr)
  | block (body : List Stmt)
  | for_ (it : String) (lb ub : Option Expr) (stride : Int) (body : List Stmt)
  | guard (eqs : List Eqn) (body : List Stmt)

/-! ## Domains -/

/-- The definition `floor((num . columns + cst) / den)` of an existentially quantified variable
(`isl_constraint_get_div`). -/
structure DivDef where
  num : List Int
  cst : Int
  den : Int
  deriving DecidableEq, Repr

/-- A convex domain as the clast construction sees it (source/isl/domain.c:59-70
`cloog_domain_constraints`): the number of iterators, the definitions of the existentially quantified
variables, and the constraints that are not mere definitions of those
(`cloog_constraint_set_foreach_constraint`, source/isl/constraints.c:1034-1065, skips the latter).
Columns: iterators, existentials, parameters. -/
structure Dom where
  nIter : Nat
  divs : List DivDef
  rows : List Row

/-- Names (source/names.c `CloogNames`): number of scattering dimensions and parameters, name of the
iterator of each column (`cloog_names_name_at_level`, source/names.c) and of each parameter. -/
structure Names where
  nScat : Nat
  nPar : Nat
  at_ : Nat → String
  param : Nat → String

/-! ### Expressions for columns (source/isl/constraints.c:534-636) -/

/-- Numerator of `c/den` in lowest terms: `isl_aff_get_coefficient_val` normalises its result, and
`div_expr` reads only the numerator (source/isl/constraints.c:575-586). The conversion to `long` by
`isl_val_get_num_si` is taken to be exact. -/
def redNum (c den : Int) : Int := c / (Int.gcd c den : Int)

/-- source/isl/constraints.c:566-591: the terms of the numerator of a division. -/
def divTerms (vars : Nat → Expr) (den : Int) : List Int → Nat → List Expr
  | [], _ => []
  | c :: cs, i =>
    if c = 0 then divTerms vars den cs (i + 1)
    else .term (redNum c den) (vars i) :: divTerms vars den cs (i + 1)

/-- source/isl/constraints.c:534-612 `div_expr`. -/
def divExpr (vars : Nat → Expr) (d : DivDef) : Expr :=
  .bin .fdiv (.red .sum (divTerms vars d.den d.num 0 ++
    (if d.cst = 0 then [] else [.cst (redNum d.cst d.den)]))) d.den

/-- source/isl/constraints.c:618-636 `cloog_constraint_variable_expr` when the expressions of the
existentials defined so far are `acc`. -/
def colExpr (nm : Names) (nIter nDiv : Nat) (acc : List Expr) (c : Nat) : Expr :=
  if c < nIter then .name (nm.at_ c)
  else if c < nIter + nDiv then acc.getD (c - nIter) (.cst 0)
  else .name (nm.param (c - nIter - nDiv))

/-- The recursion of `div_expr` through `cloog_constraint_variable_expr`; a definition uses earlier
existentials only (isl's normal form), so they can be built in order. -/
def divExprs (nm : Names) (nIter nDiv : Nat) : List DivDef → List Expr → List Expr
  | [], acc => acc
  | d :: ds, acc => divExprs nm nIter nDiv ds (acc ++ [divExpr (colExpr nm nIter nDiv acc) d])

/-- source/isl/constraints.c:618-636 `cloog_constraint_variable_expr`. -/
def Dom.vars (D : Dom) (nm : Names) : Nat → Expr :=
  colExpr nm D.nIter D.divs.length (divExprs nm D.nIter D.divs.length D.divs [])

/-- Total number of columns (`cloog_constraint_set_total_dimension`,
source/isl/constraints.c:243-248). -/
def Dom.total (D : Dom) (nm : Names) : Nat := D.nIter + D.divs.length + nm.nPar

/-! ### Looking for defining constraints -/

/-- source/isl/constraints.c:151-164 `cloog_constraint_set_defining_equality`; isl returns the first
equality whose last non-zero coefficient, in isl's order of columns (parameters, iterators,
existentials), is the one of `col`. Model of `isl_basic_set_has_defining_equality`. -/
def Dom.definingEquality (D : Dom) (rows : List Row) (col : Nat) : Option Row :=
  rows.find? (fun r => r.isEq && r.at col != 0 &&
    (List.range (D.nIter + D.divs.length)).all (fun c => c ≤ col || r.at c == 0))

/-- Do two rows have opposite coefficients? -/
def oppositeCoef (r s : Row) (total : Nat) : Bool :=
  (List.range total).all (fun c => s.at c == - r.at c)

/-- Model of `isl_basic_set_has_defining_inequalities`: two inequalities with opposite coefficients,
the one of `col` being of absolute value greater than 1 and last in isl's order, whose constants add
up to less than it. Returned as (upper, lower). -/
def findPair (D : Dom) (nPar : Nat) (col : Nat) : List Row → Option (Row × Row)
  | [] => none
  | r :: rs =>
    if !r.isEq && decide (1 < cabs (r.at col)) &&
        (List.range (D.nIter + D.divs.length)).all (fun c => decide (c ≤ col) || r.at c == 0) then
      match rs.find? (fun s => !s.isEq && oppositeCoef r s (D.nIter + D.divs.length + nPar) &&
          decide (cabs (r.cst + s.cst) < cabs (r.at col))) with
      | some s => if r.at col > 0 then some (s, r) else some (r, s)
      | none => findPair D nPar col rs
    else findPair D nPar col rs

/-- source/isl/constraints.c:178-241 `cloog_constraint_set_defining_inequalities` with
`check_other_constraint`: the pair is only used if no other constraint, including the definitions of
existentials, involves the column. Definitions of existentials are not in `rows`; a pair that is such
a definition is therefore not found here, whereas the C code finds it and then does nothing with it,
because the guard `mod(e,m) <= m-1` is redundant (source/clast.c:1484-1495). -/
def Dom.definingInequalities (D : Dom) (nPar : Nat) (rows : List Row) (col : Nat) :
    Option (Row × Row) :=
  match findPair D nPar col rows with
  | none => none
  | some (u, l) =>
    if rows.any (fun r => r.involves col && !(r == u || r == l)) ||
        D.divs.any (fun d => d.num.getD col 0 != 0) then none
    else some (u, l)

/-! ## Strides -/

/-- include/cloog/stride.h `struct cloogstride`. `con` is the `constraint` field: its columns are its
own iterators and existentials followed by the parameters. -/
structure Stride where
  stride : Int
  factor : Int
  offset : Int
  con : Option Row
  deriving DecidableEq, Repr

/-- `cloog_int_fdiv_r` where its assertion is known to hold. -/
def fdr (a m : Int) : Int := (fdivR a m).getD a

/-- source/clast.c:1286-1325 `eliminate_using_stride_constraint`. `line`/`cst` are the coefficients
(column 0 is `line[1]` of the C code) and the constant `line[len-1]`; `nb` is `nb_iter`, the number of
columns that are not parameters; `col` is the column of the stride. -/
def eliminate (line : List Int) (cst : Int) (nb : Nat) (st : Option Stride) (col : Nat) (m : Int) :
    List Int × Int :=
  match st with
  | none => (line, cst)
  | some s =>
    if !isDivisibleBy s.stride m then (line, cst)
    else
      match s.con with
      | some c =>
        let t := line.getD col 0 * s.factor
        ((line.mapIdx (fun i a =>
            if i < col then fdr (a + t * c.at i) m
            else if nb ≤ i then fdr (a + t * c.at (i + c.coef.length - line.length)) m
            else a)).set col 0,
          fdr (cst + t * c.cst) m)
      | none => (line.set col 0, fdr (cst + line.getD col 0 * s.offset) m)

/-- source/clast.c:1404-1409: eliminate for the columns `k-1, k-2, ..., 0`. -/
def eliminateAll (nb : Nat) (strides : Nat → Option Stride) (m : Int) :
    Nat → List Int × Int → List Int × Int
  | 0, lc => lc
  | k + 1, lc => eliminateAll nb strides m k (eliminate lc.1 lc.2 nb (strides k) k m)

/-! ## Modulo guards -/

/-- Result of `insert_modulo_guard`: nothing to test, never satisfied, or a test. -/
inductive ModOut
  | ok
  | unsat
  | test (q : Eqn)

/-- source/clast.c:1410-1431: the terms of a modulo guard, named by column. All columns before the
parameters, including existentials, get the name `cloog_names_name_at_level` of their position. -/
def modTerms (nm : Names) (nb : Nat) : List Int → Nat → List Expr
  | [], _ => []
  | c :: cs, i =>
    if c = 0 then modTerms nm nb cs (i + 1)
    else .term c (.name (if i < nb then nm.at_ i else nm.param (i - nb))) :: modTerms nm nb cs (i + 1)

/-- source/clast.c:1411-1444: the guard for the reduced line `lc` (coefficients, constant), modulo `m`:
decided if no term is left, otherwise a test of the sum of the terms
(`insert_computed_modulo_guard`, 1236-1258). -/
def modGuardEmit (nm : Names) (nb : Nat) (pair : Bool) (bound m : Int) (lc : List Int × Int) : ModOut :=
  if (modTerms nm nb lc.1 0).isEmpty then
    if pair then (if lc.2 ≤ bound then .ok else .unsat)
    else (if sgn lc.2 = 0 then .ok else .unsat)
  else
    let r := Expr.red .sum (if sgn lc.2 = 0 then modTerms nm nb lc.1 0
      else modTerms nm nb lc.1 0 ++ [.cst lc.2])
    if pair then .test ⟨.bin .mod r m, .cst bound, -1⟩ else .test ⟨.bin .mod r m, .cst 0, 0⟩

/-- source/clast.c:1382-1409: reduce the line modulo `m`, remove the column, and eliminate the
iterators that have a stride. -/
def modGuardReduced (nm : Names) (strides : Nat → Option Stride) (k nb : Nat) (pair : Bool)
    (bound m : Int) (line : List Int) (cst : Int) : ModOut :=
  if line.all (· == 0) && cst == 0 then .ok
  else modGuardEmit nm nb pair bound m (eliminateAll nb strides m k (line, cst))

/-- source/clast.c:1375-1380: the coefficients and the constant, with the coefficient of the column
made negative. -/
def modGuardLine (bound : Int) (c : Row) (col : Nat) : List Int × Int :=
  if 0 < c.at col then (seqNeg c.coef, -c.cst + (if c.isEq then 0 else bound)) else (c.coef, c.cst)

/-- source/clast.c:1352-1445 `insert_modulo_guard_constraint`. `pair` is
`cloog_constraint_is_valid(d->lower)`, `sl` is `infos->stride_level`. The coefficient of the modulo
column itself, which the C code keeps in `line[level]` and skips, is set to 0 and kept in `m`.
`none` is the failed assertion at line 1380. -/
def modGuardConstraint (nm : Names) (strides : Nat → Option Stride) (sl : Nat) (pair : Bool)
    (bound : Int) (c : Row) (col : Nat) : Option ModOut :=
  let lc := modGuardLine bound c col
  let m := -(lc.1.getD col 0)
  if 0 < m then
    some (modGuardReduced nm strides (if col > sl then sl else col) (c.coef.length - nm.nPar) pair
      bound m ((lc.1.map (fun a => fdr a m)).set col 0) (fdr lc.2 m))
  else none

/-- What the clast construction needs from its surroundings. `reduce` stands for
`cloog_constraint_set_for_reduction` / `cloog_constraint_set_reduce`
(source/isl/constraints.c:874-1023): given the equalities recorded at outer levels, the column and
the constraint(s), it returns the first constraint `insert_modulo_guard_constraint` is called on, with
the bound, or nothing if no constraint is left. `sort` and `gsort` are the two uses of `qsort`. -/
structure Ctx where
  nm : Names
  otl : Bool
  esp : Bool
  block : Bool
  fsp : Nat
  sort : List Expr → List Expr
  gsort : List Eqn → List Eqn
  reduce : List (Nat × Row) → Nat → Row → Option Row → Int → Option (Row × Int)
  /-- `isl_aff_floor` on the quotient of an affine form and a number
  (source/isl/constraints.c:1143-1145): an affine form with integer coefficients plus, possibly, an
  integer division that is added as a new existential. -/
  floorAff : DivDef → (List Int × Int) × Option DivDef

/-- source/clast.c:1466-1515 `insert_modulo_guard`. -/
def modGuard (cx : Ctx) (D : Dom) (eqs : List (Nat × Row)) (strides : Nat → Option Stride)
    (sl : Nat) (upper : Row) (lower : Option Row) (col : Nat) : Option ModOut :=
  let v := upper.at col
  if v = 1 ∨ v = -1 then some .ok
  else
    let bound := match lower with | some lo => upper.cst + lo.cst | none => 0
    if (match lower with | some lo => decide (lo.at col - 1 = bound) | none => false) then some .ok
    else if col < D.nIter then
      match cx.reduce eqs col upper lower bound with
      | none => some .ok
      | some (c, b) => modGuardConstraint cx.nm strides sl lower.isSome b c col
    else modGuardConstraint cx.nm strides sl lower.isSome bound upper col

/-- source/isl/constraints.c:717-734 `cloog_constraint_set_drop_constraint`: remove the constraints
with the same affine form. -/
def dropRow (rows : List Row) (r : Row) : List Row :=
  rows.filter (fun s => !(s.coef == r.coef && s.cst == r.cst))

/-- Put a test around code. -/
def ModOut.wrap : ModOut → List Stmt → List Stmt
  | .test q, body => [.guard [q] body]
  | _, body => body

/-- `level` as a column to be excluded: `level && nb_iter >= level`, source/clast.c:1013, 1090. -/
def guardCol (D : Dom) (L : Nat) : Option Nat := if 0 < L ∧ L ≤ D.nIter then some (L - 1) else none

/-- Does a row involve the excluded column? -/
def Row.involvesOpt (r : Row) : Option Nat → Bool
  | none => false
  | some c => r.involves c

/-- source/clast.c:993-1034 `insert_extra_modulo_guards` for the existential columns
`nIter + k - 1, ..., nIter`: the remaining rows, and the guards in the order they are inserted
(outermost first). The return value of `insert_modulo_guard` is ignored, as in the code. -/
def extraModGuards (cx : Ctx) (D : Dom) (L : Nat) (eqs : List (Nat × Row))
    (strides : Nat → Option Stride) (sl : Nat) : Nat → List Row → Option (List Row × List ModOut)
  | 0, rows => some (rows, [])
  | k + 1, rows =>
    let col := D.nIter + k
    match D.definingEquality rows col with
    | some u =>
      if Row.involvesOpt u (guardCol D L) then extraModGuards cx D L eqs strides sl k rows
      else do
        let o ← modGuard cx D eqs strides sl u none col
        let (rows', os) ← extraModGuards cx D L eqs strides sl k (dropRow rows u)
        some (rows', o :: os)
    | none =>
      match D.definingInequalities cx.nm.nPar rows col with
      | some (u, l) =>
        if Row.involvesOpt u (guardCol D L) then extraModGuards cx D L eqs strides sl k rows
        else do
          let o ← modGuard cx D eqs strides sl u (some l) col
          let (rows', os) ← extraModGuards cx D L eqs strides sl k (dropRow (dropRow rows u) l)
          some (rows', o :: os)
      | none => extraModGuards cx D L eqs strides sl k rows

/-! ## Guards -/

/-- source/clast.c:1104-1118, `individual_constraint`: the coefficient goes to the left-hand side. -/
def individualEqn (r : Row) (i : Nat) (vars : Nat → Expr) : Option Eqn :=
  let c := r.at i
  let lhs := Expr.term (if c < 0 then -c else c) (vars i)
  let r' : Row := { r with coef := r.coef.set i (if c < 0 then -1 else 1) }
  let sign : Int := if r.isEq then 0 else if 0 < r'.at i then 1 else -1
  (boundFromConstraint r' i vars).map (fun rhs => ⟨lhs, rhs, sign⟩)

/-- source/clast.c:1075-1140 `insert_guard_constraint`, run over the rows for one column `i`; `mn` and
`mx` are `d->min`, `d->max`. -/
def guardRows (cx : Ctx) (D : Dom) (L : Nat) (copy : List Row) (i : Nat) :
    List Row → Bool → Bool → List Eqn
  | [], _, _ => []
  | r :: rs, mn, mx =>
    if !r.involves i then guardRows cx D L copy i rs mn mx
    else if (List.range i).any (fun k => r.involves k) then guardRows cx D L copy i rs mn mx
    else if Row.involvesOpt r (guardCol D L) then guardRows cx D L copy i rs mn mx
    else if L = 0 ∨ r.isEq then
      (individualEqn r i (D.vars cx.nm)).toList ++ guardRows cx D L copy i rs mn mx
    else if mx && r.isLower i then guardRows cx D L copy i rs mn mx
    else if mn && r.isUpper i then guardRows cx D L copy i rs mn mx
    else
      let up := !r.isLower i
      ((minmax cx.sort copy i (!up) (guardCol D L) false true none (D.vars cx.nm)).map
        (fun rhs => (⟨.term 1 (D.vars cx.nm i), rhs, if up then -1 else 1⟩ : Eqn))).toList ++
      guardRows cx D L copy i rs (mn || up) (mx || !up)

/-- source/clast.c:1197-1202: all columns in order. -/
def guardEqns (cx : Ctx) (D : Dom) (L : Nat) (copy : List Row) : List Eqn :=
  (List.range (D.total cx.nm)).flatMap (fun i => guardRows cx D L copy i copy false false)

/-- source/clast.c:1170-1215 `insert_guard`: what is put around the rest. -/
def insertGuard (cx : Ctx) (D : Dom) (L : Nat) (eqs : List (Nat × Row))
    (strides : Nat → Option Stride) (sl : Nat) : Option (List Stmt → List Stmt) := do
  let (copy, outs) ← extraModGuards cx D L eqs strides sl D.divs.length D.rows
  let g := guardEqns cx D L copy
  some (fun body =>
    outs.foldr ModOut.wrap (if g.isEmpty then body else [.guard (cx.gsort g) body]))

/-! ## Equations and loops -/

/-- include/cloog/input.h / source/isl/constraints.c: kinds of recorded equalities. -/
inductive EqType | none_ | constant | pure | exaffine
  deriving DecidableEq, Repr

/-- One of the three loops of `cloog_constraint_equal_type` (source/isl/constraints.c:345-392). -/
def eqTypeCols (r : Row) (skip : Nat) : List Nat → EqType → EqType
  | [], t => t
  | c :: cs, t =>
    if c = skip ∨ r.at c = 0 then eqTypeCols r skip cs t
    else if (r.at c ≠ 1 ∧ r.at c ≠ -1) ∨ t ≠ .none_ then .exaffine
    else eqTypeCols r skip cs .pure

/-- source/isl/constraints.c:330-397 `cloog_constraint_equal_type`: parameters, then iterators, then
existentials. -/
def eqType (D : Dom) (nPar : Nat) (r : Row) (col : Nat) : EqType :=
  let t0 : EqType := if r.cst ≠ 0 then .constant else .none_
  let t1 := if r.at col ≠ 1 ∧ r.at col ≠ -1 then EqType.exaffine else t0
  let nd := D.divs.length
  let t2 := eqTypeCols r col ((List.range nPar).map (· + (D.nIter + nd))) t1
  let t3 := eqTypeCols r col (List.range D.nIter) t2
  let t4 := eqTypeCols r col ((List.range nd).map (· + D.nIter)) t3
  if t4 = .none_ then .constant else t4

/-- source/clast.c:575-587 `clast_equal_allow`. -/
def equalAllow (cx : Ctx) (L : Nat) (t : EqType) : Bool :=
  if L < cx.fsp then false else if t = .exaffine ∧ cx.esp = false then false else true

/-- An assignment, inside a block of its own if the `block` option is set
(source/clast.c:1597-1609, 1642-1650, 1685-1692). -/
def assign (cx : Ctx) (col : Nat) (e : Expr) (body : List Stmt) : List Stmt :=
  if cx.block then [.block (.ass (cx.nm.at_ col) e :: body)] else .ass (cx.nm.at_ col) e :: body

/-- Result of `insert_equation` / `insert_for`: whether to recurse, what to put around, and the
equality recorded for the level, if any. -/
structure Step where
  go : Bool
  wrap : List Stmt → List Stmt
  rec_ : Option Row
  /-- Is the iterator assigned by the generated code? -/
  assigned : Bool

/-- The step of a loop, 1 without a stride (source/clast.c:275-278 `new_clast_for`). -/
def strideStep : Option Stride → Int
  | some s => s.stride
  | none => 1

/-- source/clast.c:1523-1617 `insert_equation`, `insert_equation_as_loop`. -/
def insertEquation (cx : Ctx) (D : Dom) (L : Nat) (eqs : List (Nat × Row))
    (strides : Nat → Option Stride) (upper : Row) (lower : Option Row) : Option Step := do
  let col := L - 1
  let vars := D.vars cx.nm
  if !cx.otl then
    let e2 ← boundFromConstraint upper col vars
    let e1 ← (match lower with
      | none => some (copy e2)
      | some lo => boundFromConstraint lo col vars)
    some ⟨true, fun body => [.for_ (cx.nm.at_ col) (some e1) (some e2)
      (strideStep (strides col)) body], none, true⟩
  else
    match ← modGuard cx D eqs strides L upper lower col with
    | .unsat => some ⟨false, fun body => body, none, true⟩
    | o =>
      let e ← boundFromConstraint upper col vars
      match lower with
      | some _ => some ⟨true, fun body => o.wrap (assign cx col e body), none, true⟩
      | none =>
        if equalAllow cx L (eqType D cx.nm.nPar upper col) then
          some ⟨true, o.wrap, some upper, false⟩
        else some ⟨true, fun body => o.wrap (assign cx col e body), some upper, true⟩

/-- Coefficients of the offset of a stride given by the constraint `c`
(source/isl/constraints.c:1083-1113 `extract_stride_offset`), for a bound with `n` columns of which the
first `nb` are not parameters.  Iterators after column `col` do not occur in `c`, because strides are
computed from the projections onto the first `col + 1` iterators (source/isl/domain.c:1915-1943). -/
def strideOff (s : Stride) (c : Row) (col nb n i : Nat) : Int :=
  if i < col then s.factor * c.at i
  else if nb ≤ i then s.factor * c.at (i + c.coef.length - n)
  else 0

/-- The quotient that is rounded for the lower bound `r`, with `a` the coefficient of the iterator, `f`
the other terms and `d` the offset: `(f + a d) / (a stride)`
(source/isl/constraints.c:1129-1153 `cloog_constraint_stride_lower_bound`, 1137-1143). -/
def strideDiv (nPar : Nat) (s : Stride) (c : Row) (col : Nat) (r : Row) : DivDef :=
  ⟨(List.range r.coef.length).map (fun i => if i = col then 0
      else r.at i + r.at col * strideOff s c col (r.coef.length - nPar) r.coef.length i),
    r.cst + r.at col * (s.factor * c.cst), r.at col * s.stride⟩

/-- The columns of a row without and with an existential after the first `nb`, for values and for
expressions. -/
def insertCol {α : Type} (nb : Nat) (v : α) (f : Nat → α) (i : Nat) : α :=
  if i < nb then f i else if i = nb then v else f (i - 1)

/-- The new bound `i >= stride * ceil((-f/a - d) / stride) + d`
(source/isl/constraints.c:1143-1152); a new existential comes after those of the bound. -/
def strideRow (nPar : Nat) (s : Stride) (c : Row) (col : Nat) (r : Row)
    (q : (List Int × Int) × Option DivDef) : Row :=
  let coef := fun i => (if i = col then 1 else 0) + s.stride * q.1.1.getD i 0 -
    strideOff s c col (r.coef.length - nPar) r.coef.length i
  ⟨false,
    match q.2 with
    | none => (List.range r.coef.length).map coef
    | some _ => (List.range (r.coef.length + 1)).map (insertCol (r.coef.length - nPar) s.stride coef),
    s.stride * q.1.2 - s.factor * c.cst⟩

/-- The expressions of its columns. -/
def strideVars (nb : Nat) (vars : Nat → Expr) : Option DivDef → Nat → Expr
  | none => vars
  | some d => insertCol nb (divExpr vars d) vars

/-- source/clast.c:865-871 `update_lower_bound_c` with `cloog_constraint_stride_lower_bound`, and then
`clast_bound_from_constraint`. -/
def strideBound (cx : Ctx) (s : Stride) (c : Row) (col : Nat) (vars : Nat → Expr) (r : Row) : Option Expr :=
  let q := cx.floorAff (strideDiv cx.nm.nPar s c col r)
  boundFromConstraint (strideRow cx.nm.nPar s c col r q) col
    (strideVars (r.coef.length - cx.nm.nPar) vars q.2)

/-- source/clast.c:904-928 `collect_bounds` for one constraint and a stride of any kind: like
`Bound.adjustBound`, with `update_lower_bound_c` (865-871) for strides whose offset is given by a
constraint; `update_lower_bound` (882-898) leaves those alone. -/
def loopBoundElt (cx : Ctx) (col : Nat) (max : Bool) (st : Option Stride) (vars : Nat → Expr)
    (r : Row) : Option Expr :=
  match max, st with
  | true, some s =>
    match s.con with
    | some c => strideBound cx s c col vars r
    | none => (boundFromConstraint r col vars).map (updLower ⟨s.stride, s.offset⟩)
  | _, _ => boundFromConstraint r col vars

/-- source/clast.c:904-928 `collect_bounds` over all constraints, for a loop. -/
def loopBounds (cx : Ctx) (rows : List Row) (col : Nat) (max : Bool) (st : Option Stride)
    (vars : Nat → Expr) : List Expr :=
  (rows.filter (fun r => validBound r col max none false)).filterMap
    (loopBoundElt cx col max st vars)

/-- source/clast.c:956-979 `clast_minmax` for a loop bound. -/
def loopBound (cx : Ctx) (rows : List Row) (col : Nat) (max : Bool) (st : Option Stride)
    (vars : Nat → Expr) : Option Expr :=
  let elts := loopBounds cx rows col max st vars
  if elts.isEmpty then none else some (.red (if max then .max else .min) (cx.sort elts))

/-- source/clast.c:1725-1765 `insert_for` with `insert_otl_for` (1634-1655) and
`insert_guarded_otl_for` (1674-1703). `none` is an abort: the assertion in the isl version of
`cloog_equal_add` (source/isl/constraints.c:428) fails when `insert_otl_for` passes it an invalid
constraint; or a NULL bound is used by `insert_guarded_otl_for`. The `callable` option
(`clast_for_bound`), which only matters for loops without a bound, is modelled in Model/Callable.lean. -/
def insertFor (cx : Ctx) (icmp : Int → Int → Int) (rows : List Row) (L : Nat) (otl : Bool)
    (st : Option Stride) (vars : Nat → Expr) : Option Step :=
  let col := L - 1
  let e1 := loopBound cx rows col true st vars
  let e2 := loopBound cx rows col false st vars
  if isBiggerConstant e1 e2 then some ⟨false, fun body => body, none, true⟩
  else if e1.isSome && e2.isSome && cx.otl && exprEqual icmp e1 e2 then none
  else if otl then
    match e1, e2 with
    | some a, some b => some ⟨true, fun body => assign cx col a
        [.guard [⟨.term 1 (.name (cx.nm.at_ col)), b, -1⟩] body], none, true⟩
    | _, _ => none
  else some ⟨true, fun body => [.for_ (cx.nm.at_ col) e1 e2
      (strideStep st) body], none, true⟩

/-! ## Statements and the tree -/

/-- include/cloog/loop.h `struct cloogloop`, the fields the clast construction reads: domain, stride,
otl flag, statement block (statement numbers), inner loops; `next` is the list structure. -/
inductive Loop
  | mk (dom : Dom) (stride : Option Stride) (otl : Bool) (block : List Nat) (inner : List Loop)

/-- Expressions of the columns of a recorded equality with `n` columns: an equality recorded for an
iterator has its domain's iterators first and the parameters last. -/
def eqVars (nm : Names) (nIter : Nat) (n : Nat) (c : Nat) : Expr :=
  if c < nIter then .name (nm.at_ c) else .name (nm.param (c + nm.nPar - n))

/-- source/clast.c:1779-1798 `insert_block` with `clast_equal` (628-651): one substitution per iterator
from `nScat` to `n-1` (`n` is `level-1` in `clast_equal`). Recorded equalities are looked up by
column. -/
def insertBlock (cx : Ctx) (eqs : List (Nat × Row)) (block : List Nat) (n : Nat) : List Stmt :=
  block.map (fun s => .user s (((List.range n).filter (fun i => cx.nm.nScat ≤ i)).map (fun i =>
    match eqs.lookup i with
    | some r => (boundFromConstraint r i (eqVars cx.nm (i + 1) r.coef.length)).getD (.cst 0)
    | none => .term 1 (.name (cx.nm.at_ i)))))

/-- source/clast.c:1838-1908 `insert_loop`, lines 1867-1888: what the loop puts around its contents.
`cloog_constraint_set_contains_level` is `level <= nIter` (source/isl/constraints.c). -/
def loopStep (cx : Ctx) (icmp : Int → Int → Int) (D : Dom) (L : Nat) (otl : Bool)
    (eqs : List (Nat × Row)) (strides : Nat → Option Stride) : Option Step :=
  if 0 < L ∧ L ≤ D.nIter then
    match D.definingEquality D.rows (L - 1) with
    | some u => insertEquation cx D L eqs strides u none
    | none =>
      match D.definingInequalities cx.nm.nPar D.rows (L - 1) with
      | some (u, l) => insertEquation cx D L eqs strides u (some l)
      | none => insertFor cx icmp D.rows L otl (strides (L - 1)) (D.vars cx.nm)
  else some ⟨true, fun body => body, none, true⟩

/-- `equality` of source/clast.c:1841, 1879. -/
def isEquality (D : Dom) (L : Nat) : Bool :=
  decide (0 < L ∧ L ≤ D.nIter) && (D.definingEquality D.rows (L - 1)).isSome

/-- source/clast.c:601-610 `cloog_equal_add` as called by `insert_equation` (1612): the equality of the
level, if there is one, is put in front. -/
def recordEq (L : Nat) (eqs : List (Nat × Row)) : Option Row → List (Nat × Row)
  | some r => (L - 1, r) :: eqs
  | none => eqs

mutual
/-- source/clast.c:1838-1900 `insert_loop` for one loop. `eqs` lists the equalities recorded for outer
levels (`infos->equal`), `strides` is `infos->stride` and `L` is also `infos->stride_level` once the
current level has been entered. -/
def insertLoop (cx : Ctx) (icmp : Int → Int → Int) (L : Nat) (eqs : List (Nat × Row))
    (strides : Nat → Option Stride) : Loop → Option (List Stmt)
  | .mk D st otl block inner => do
    let strides' := if 0 < L then Function.update strides (L - 1) st else strides
    let g ← insertGuard cx D L eqs strides' L
    let s ← loopStep cx icmp D L otl eqs strides'
    if !s.go then some (g (s.wrap []))
    else
      let eqs' := recordEq L eqs s.rec_
      let rest ← insertLoops cx icmp (L + 1) eqs' strides' inner
      some (g (s.wrap (insertBlock cx eqs' block (L + (if isEquality D L then 1 else 0) - 1) ++ rest)))
/-- source/clast.c:1902-1907: the following loops of the same level. -/
def insertLoops (cx : Ctx) (icmp : Int → Int → Int) (L : Nat) (eqs : List (Nat × Row))
    (strides : Nat → Option Stride) : List Loop → Option (List Stmt)
  | [] => some []
  | l :: ls => do
    let a ← insertLoop cx icmp L eqs strides l
    let b ← insertLoops cx icmp L eqs strides ls
    some (a ++ b)
end

/-- source/clast.c:1911-1943 `cloog_clast_create`. -/
def clastCreate (cx : Ctx) (icmp : Int → Int → Int) (loops : List Loop) : Option (List Stmt) :=
  insertLoops cx icmp 0 [] (fun _ => none) loops

end Verif.ClastGen
