import Verif.Model.IntOps

/-!
# The matrix backend: normalisation and equality spreading

Model of source/matrix/constraintset.c:218-468 and 494-713.  A row of a constraint matrix in PolyLib
format is a list: the flag (0: equality, otherwise inequality), the iterators from column 1, the
parameters and the constant in the last columns.  Integers are exact; reads outside a row give 0 (the
theorems assume rows long enough).
-/

namespace Verif.EqTable
open Verif.IntOps

/-- A row of a matrix. -/
abbrev Row := List Int

/-- An entry. -/
def at_ (r : Row) (j : Nat) : Int := r.getD j 0

/-- Overwrite all columns `j` from `lo` to the end for which `p j` by `f j` (the loops
    `for (j = ...) cloog_int_set / cloog_int_sub`); the others keep their value. -/
def update (p : Nat → Bool) (f : Nat → Int) (r : Row) : Row :=
  r.mapIdx fun j v => if p j then f j else v

/-- `cloog_seq_normalize (&p[1], len - 1)` (source/int.c:165-177). -/
def normalizeTail (r : Row) : Row := r.take 1 ++ seqNormalize (r.drop 1)

/-! ## cloog_constraint_set_normalize -/

/-- The two factors (source/matrix/constraintset.c:519-527): `a` is the entry of the reference row, `b`
    that of the row to change. -/
def factors (a b : Int) : Int × Int :=
  let g := cgcd a b
  let fi := a.tdiv g
  let fr := b.tdiv g
  if fi < 0 then (cabs fi, -fr) else (fi, fr)

/-- Removal of the level from a row with the reference row (source/matrix/constraintset.c:513-538). -/
def cancel (level : Nat) (ref r : Row) : Row :=
  if at_ r level = 0 then r
  else
    let (fi, fr) := factors (at_ ref level) (at_ r level)
    normalizeTail (update (fun j => decide (1 ≤ j)) (fun j => fi * at_ r j - fr * at_ ref j) r)

/-- The search for the reference row and the loop over the rows after it
    (source/matrix/constraintset.c:504-547). -/
def normalizeGo (level : Nat) : List Row → List Row
  | [] => []
  | r :: rest =>
    if at_ r 0 = 0 ∧ at_ r level ≠ 0 then r :: rest.map (cancel level r)
    else r :: normalizeGo level rest

/-- `cloog_constraint_set_normalize` (source/matrix/constraintset.c:494-548) for a matrix of `ncol`
    columns. -/
def normalize (ncol level : Nat) (m : List Row) : List Row :=
  if level = ncol - 1 then m else normalizeGo level m

/-! ## Equalities -/

/-- `CloogEqualities` (include/cloog/matrix/constraintset.h): number of columns, of parameters, the
    rows, and the types (`EQTYPE_*`, include/cloog/pprint.h:49-52; 0: no equality).  The number of
    parameters is an argument of all functions in the code, always the same. -/
structure Eqs where
  ncol : Nat
  nPar : Nat
  rows : List Row
  types : List Nat

/-- The row of a level. -/
def Eqs.row (q : Eqs) (i : Nat) : Row := q.rows.getD i []

/-- Its type. -/
def Eqs.type (q : Eqs) (i : Nat) : Nat := q.types.getD i 0

/-- `cloog_equal_alloc` (source/matrix/constraintset.c:218-230). -/
def eqAlloc (n nbLevels nPar : Nat) : Eqs where
  ncol := nbLevels + nPar + 1
  nPar := nPar
  rows := List.replicate n (List.replicate (nbLevels + nPar + 1) 0)
  types := List.replicate n 0

/-- The loop of `cloog_constraint_equal_type` over the columns (source/matrix/constraintset.c:284-290):
    `none` for `return EQTYPE_EXAFFINE`, otherwise the final value of `one`. -/
def typeGo (level : Nat) : List Int → Nat → Bool → Option Bool
  | [], _, one => some one
  | v :: vs, i, one =>
    if v ≠ 0 ∧ i ≠ level then
      if (v ≠ 1 ∧ v ≠ -1) ∨ one = true then none else typeGo level vs (i + 1) true
    else typeGo level vs (i + 1) one

/-- `cloog_constraint_equal_type` (source/matrix/constraintset.c:271-300). -/
def equalType (r : Row) (level : Nat) : Nat :=
  if at_ r level ≠ 1 ∧ at_ r level ≠ -1 then 3
  else
    match typeGo level ((r.drop 1).dropLast) 1 false with
    | none => 3
    | some true => if at_ r (r.length - 1) ≠ 0 then 3 else 2
    | some false => 1

/-- One turn of the loop of `cloog_equal_update` (source/matrix/constraintset.c:334-369) with the row of
    iterator column `c` (row `c - 1`).  Columns changed: 1 to `level` and the last `nPar + 1`. -/
def updateStep (q : Eqs) (level c : Nat) (r : Row) : Row :=
  if at_ r c ≠ 0 ∧ q.type (c - 1) ≠ 0 then
    let e := q.row (c - 1)
    let g := cgcd (at_ r c) (at_ e c)
    let fl := (at_ e c).tdiv g
    let fo := (at_ r c).tdiv g
    update (fun j => decide (1 ≤ j ∧ j ≤ level) || decide (q.ncol - q.nPar - 1 ≤ j))
      (fun j => fl * at_ r j - fo * at_ e j) r
  else r

/-- The loop: columns `c` down to 1. -/
def updateGo (q : Eqs) (level : Nat) : Nat → Row → Row
  | 0, r => r
  | c + 1, r => updateGo q level c (updateStep q level (c + 1) r)

/-- `cloog_equal_update` (source/matrix/constraintset.c:322-380) on the row of `level`. -/
def updateRow (q : Eqs) (level : Nat) (r : Row) : Row := normalizeTail (updateGo q level (level - 1) r)

/-- Copying a constraint to the row of `level` (source/matrix/constraintset.c:446-450): columns 1 to
    `level`, then the parameters and the constant, which stand at the end of both rows. -/
def copyLine (q : Eqs) (level : Nat) (line old : Row) : Row :=
  update (fun j => decide (1 ≤ j ∧ j ≤ level) || decide (q.ncol - q.nPar - 1 ≤ j))
    (fun j => if q.ncol - q.nPar - 1 ≤ j then at_ line (j + line.length - q.ncol) else at_ line j) old

/-- `cloog_equal_add` (source/matrix/constraintset.c:396-455) with a valid constraint. -/
def equalAdd (q : Eqs) (level : Nat) (line : Row) : Eqs where
  ncol := q.ncol
  nPar := q.nPar
  rows := q.rows.set (level - 1) (updateRow q level (copyLine q level line (q.row (level - 1))))
  types := q.types.set (level - 1) (equalType line level)

/-- `cloog_equal_del` (source/matrix/constraintset.c:463-466). -/
def equalDel (q : Eqs) (level : Nat) : Eqs := { q with types := q.types.set (level - 1) 0 }

/-- The equality taken from an inequality of a loop running once (source/matrix/constraintset.c:416-431):
    the constant is divided if the coefficient of the level is not 1 or -1 and the constant is not 0. -/
def tighten (level : Nat) (r : Row) : Row :=
  if at_ r level ≠ 1 ∧ at_ r level ≠ -1 ∧ at_ r (r.length - 1) ≠ 0 then
    update (fun j => decide (j = r.length - 1) || decide (j = level))
      (fun j => if j = level then sgn (at_ r level)
        else (fdivQ (at_ r (r.length - 1)) (cabs (at_ r level))).getD 0) r
  else r

/-- The search for that inequality (source/matrix/constraintset.c:407-411). -/
def otlLine (level : Nat) (m : List Row) : Option Row :=
  (m.find? fun r => decide (at_ r 0 ≠ 0 ∧ at_ r level ≠ 0)).map (tighten level)

/-! ## Simplification -/

/-- One turn of the loop of `cloog_equal_vector_simplify` (source/matrix/constraintset.c:611-645) for
    column `c`.  Iterators stand in the same column of both rows, parameters and the constant at the end
    of both. -/
def simplifyStep (q : Eqs) (level : Int) (c : Nat) (r : Row) : Row :=
  if (c : Int) ≠ level ∧ at_ r c ≠ 0 ∧ q.type (c - 1) ≠ 0 then
    let e := q.row (c - 1)
    let (fv, fe) := factors (at_ e c) (at_ r c)
    update (fun j => decide (1 ≤ j))
      (fun j => fv * at_ r j - fe *
        (if r.length - q.nPar - 1 ≤ j then at_ e (j + q.ncol - r.length) else at_ e j)) r
  else r

/-- The loop: columns `c` down to 1. -/
def simplifyGo (q : Eqs) (level : Int) : Nat → Row → Row
  | 0, r => r
  | c + 1, r => simplifyGo q level c (simplifyStep q level (c + 1) r)

/-- `cloog_equal_vector_simplify` (source/matrix/constraintset.c:594-658); `level` -1: none. -/
def vectorSimplify (q : Eqs) (level : Int) (r : Row) : Row :=
  normalizeTail (simplifyGo q level (r.length - q.nPar - 2) r)

/-- Replacing later copies of a row by zeros (source/matrix/constraintset.c:699-710); `fuel` bounds the
    number of rows. -/
def clearCopies : Nat → List Row → List Row
  | fuel + 1, r :: rest =>
    r :: clearCopies fuel (rest.map fun s => if s = r then List.replicate s.length 0 else s)
  | _, m => m

/-- `cloog_constraint_set_simplify` (source/matrix/constraintset.c:676-713). -/
def setSimplify (q : Eqs) (level : Int) (m : List Row) : List Row :=
  clearCopies m.length (m.map (vectorSimplify q level))

/-! ## Reduction of modulo guards -/

/-- The tests on the equality of row `j` (source/matrix/constraintset.c:939-962 and 965): the coefficient
    of its iterator is a multiple of the modulus, that of column `i` is not, those between are; the test
    at 965 asks whether the coefficient of column `i` is a multiple of that of the line. -/
def usable (q : Eqs) (level i j : Nat) (line : Row) : Bool :=
  let e := q.row j
  let m := at_ line level
  decide (q.type j = 3) && isDivisibleBy (at_ e (j + 1)) m && !isDivisibleBy (at_ e i) m &&
    ((List.range (j + 1)).all fun k => decide (k ≤ i) || isDivisibleBy (at_ e k) m) &&
    isDivisibleBy (at_ e i) (at_ line i)

/-- Adding a multiple of the equality (source/matrix/constraintset.c:969-977): columns 1 to `i` and the
    parameters and constant.  `cloog_int_divexact` is a plain division in the version with machine
    integers; with GMP it is only defined if the division is exact, which 965 does not ensure. -/
def addEquality (q : Eqs) (level i j : Nat) (line : Row) : Row :=
  let e := q.row j
  let (x, _, g) := euclid (at_ e i) (at_ line level)
  let v := -((at_ line i).tdiv g) * x
  update (fun k => decide (1 ≤ k ∧ k ≤ i) || decide (line.length - q.nPar - 1 ≤ k))
    (fun k => at_ line k + v *
      (if line.length - q.nPar - 1 ≤ k then at_ e (k + q.ncol - line.length) else at_ e k)) line

/-- The search for an equality, rows `j` down to 0 (source/matrix/constraintset.c:938-980). -/
def reduceSearch (q : Eqs) (level i : Nat) (line : Row) : Nat → Row
  | 0 => line
  | j + 1 => if usable q level i j line then addEquality q level i j line else reduceSearch q level i line j

/-- One turn for column `i` (source/matrix/constraintset.c:926-981); the modulus is positive. -/
def reduceStep (q : Eqs) (level i : Nat) (line : Row) : Row :=
  if i = level then line
  else
    let line := update (fun k => decide (k = i)) (fun _ => (fdivR (at_ line i) (at_ line level)).getD 0) line
    if at_ line i = 0 then line else reduceSearch q level i line level

/-- Columns `i` down to 1. -/
def reduceGo (q : Eqs) (level : Nat) : Nat → Row → Row
  | 0, line => line
  | i + 1, line => reduceGo q level i (reduceStep q level (i + 1) line)

/-- `cloog_constraint_set_reduce` (source/matrix/constraintset.c:903-995) on the only row of its
    constraint set; the bound is not touched.  The assertion at 924 fails if the level does not occur. -/
def setReduce (q : Eqs) (level : Nat) (line : Row) : Option Row :=
  let l1 := if 0 < at_ line level then update (fun k => decide (1 ≤ k)) (fun k => -at_ line k) line else line
  let l2 := update (fun k => decide (k = level)) (fun k => -at_ l1 k) l1
  if 0 < at_ l2 level then
    let l3 := reduceGo q level (line.length - q.nPar - 2) l2
    some (update (fun k => decide (k = level)) (fun k => -at_ l3 k) l3)
  else none

end Verif.EqTable
