import Verif.Model.Clast

/-!
# Constraints and loop bounds

A constraint (`CloogConstraint`) is a row of integer coefficients, one per column (iterators, then
existentially quantified variables, then parameters), a constant, and a flag telling equalities from
inequalities.  Columns are numbered from 0 here; the C code numbers levels from 1, so column `l` is
level `l+1`.
-/

namespace Verif.Bound

open Verif.IntOps Verif.Clast

/-- A constraint `coef . x + cst >= 0` (or `= 0`), as read through `cloog_constraint_coefficient_get`,
`cloog_constraint_constant_get`, `cloog_constraint_is_equality`
(source/isl/constraints.c:684-687, 736-795). -/
structure Row where
  isEq : Bool
  coef : List Int
  cst : Int
  deriving Repr, DecidableEq

/-- A valuation of the columns. -/
abbrev Point := Nat → Int

/-- `sum_k coefs[k] * x (i+k)`. -/
def dotFrom : List Int → Nat → Point → Int
  | [], _, _ => 0
  | c :: cs, i, x => c * x i + dotFrom cs (i + 1) x

/-- Value of the affine form of a constraint at a point. -/
def Row.val (r : Row) (x : Point) : Int := dotFrom r.coef 0 x + r.cst

/-- The meaning of a constraint. -/
def Row.holds (r : Row) (x : Point) : Prop := if r.isEq then r.val x = 0 else 0 ≤ r.val x

instance (r : Row) (x : Point) : Decidable (r.holds x) := by unfold Row.holds; infer_instance

/-- The coefficient of column `l`. -/
def Row.at (r : Row) (l : Nat) : Int := r.coef.getD l 0

/-- source/isl/constraints.c:642-654 `cloog_constraint_involves` (a missing column gives 0). -/
def Row.involves (r : Row) (l : Nat) : Bool := r.at l ≠ 0
/-- source/isl/constraints.c:656-668 `cloog_constraint_is_lower_bound`. -/
def Row.isLower (r : Row) (l : Nat) : Bool := r.at l > 0
/-- source/isl/constraints.c:670-682 `cloog_constraint_is_upper_bound`. -/
def Row.isUpper (r : Row) (l : Nat) : Bool := r.at l < 0

/-! ## clast_bound_from_constraint -/

/-- source/clast.c:699-713: the terms for all columns other than `l` with a non-zero coefficient;
`i` is the running column, `neg` is the test `sign == -1`. `vars i` is
`cloog_constraint_variable_expr` for column `i` (source/isl/constraints.c:618-636): the name of an
iterator or parameter, or the expression of an existentially quantified variable. -/
def boundTerms (neg : Bool) (l : Nat) (vars : Nat → Expr) : List Int → Nat → List Expr
  | [], _ => []
  | c :: cs, i =>
    if i = l ∨ sgn c = 0 then boundTerms neg l vars cs (i + 1)
    else .term (if neg then -c else c) (vars i) :: boundTerms neg l vars cs (i + 1)

/-- source/clast.c:671-795 `clast_bound_from_constraint`; `none` is the NULL result. -/
def boundFromConstraint (r : Row) (l : Nat) (vars : Nat → Expr) : Option Expr :=
  let a := r.at l
  if sgn a = 0 then none
  else
    -- 690: sign = -sgn(line[level]); `neg` is `sign == -1`
    let neg : Bool := sgn a > 0
    let elts := boundTerms neg l vars r.coef 0
    -- 715-722
    let num := if neg then -r.cst else r.cst
    let den := if neg then a else -a
    -- 725-739
    if ¬ elts.isEmpty then
      let elts := if sgn num ≠ 0 then elts ++ [.cst num] else elts
      let red := Expr.red .sum elts
      if ¬ (a = 1) ∧ ¬ (a = -1) then
        if !r.isEq then
          if sgn a > 0 then some (.bin .cdiv red den) else some (.bin .fdiv red den)
        else some (.bin .div red den)
      else some red
    -- 740-785
    else if sgn num = 0 then some (.cst num)
    else if ¬ (den = 1) then
      if !r.isEq then
        if isDivisibleBy num den then some (.cst (num.tdiv den))
        else
          let division := num.tdiv den
          if sgn num < 0 then
            if sgn a > 0 then some (.cst division) else some (.cst (division - 1))
          else
            if sgn a > 0 then some (.cst (division + 1)) else some (.cst division)
      else some (.bin .div (.cst num) den)
    else some (.cst num)

/-! ## clast_minmax -/

/-- source/clast.c:818-837 `valid_bound`. `guard` is `d->guard` (0 when there is none) as an optional
column. -/
def validBound (r : Row) (l : Nat) (max : Bool) (guard : Option Nat) (noEarlier : Bool) : Bool :=
  (if max then r.isLower l else r.isUpper l) && !r.isEq &&
  (match guard with | some g => !r.involves g | none => true) &&
  (!noEarlier || (List.range l).all (fun i => !r.involves i))

/-- A stride with a constant offset (`struct cloogstride`, include/cloog/stride.h, with a NULL
`constraint`). Strides whose offset is given by a constraint adjust the bound through isl
(source/isl/constraints.c:1129-1153) and are not part of this model of `clast_minmax`. -/
structure CStride where
  stride : Int
  offset : Int
  deriving Repr, DecidableEq

/-- source/clast.c:882-898 `update_lower_bound` on an expression: constants are adjusted, anything
else is left alone. A failed assertion of `cloog_int_cdiv_q` (stride not positive) is modelled by
leaving the bound unchanged; strides are positive wherever the function is used
(`IntOps.updateLowerBound` keeps the failure explicit). -/
def updLower (s : CStride) : Expr → Expr
  | .cst c => .cst ((updateLowerBound c s.stride s.offset).getD c)
  | e => e

/-- source/clast.c:914-923: the adjustment is made for the lower bound of a loop with a stride. -/
def adjustBound (lowerBound : Bool) (stride : Option CStride) (e : Expr) : Expr :=
  match lowerBound, stride with
  | true, some s => updLower s e
  | _, _ => e

/-- source/clast.c:904-928 `collect_bounds` over all constraints: the bound expression of each
valid bound, adjusted to the stride when the result is used as a loop's lower bound. The C callback
stores the result of `clast_bound_from_constraint` without a NULL test; `valid_bound` implies it is
not NULL, `filterMap` therefore drops nothing. -/
def collectBounds (rows : List Row) (l : Nat) (max : Bool) (guard : Option Nat) (lowerBound : Bool)
    (noEarlier : Bool) (stride : Option CStride) (vars : Nat → Expr) : List Expr :=
  (rows.filter (fun r => validBound r l max guard noEarlier)).filterMap (fun r =>
    (boundFromConstraint r l vars).map (adjustBound lowerBound stride))

/-- source/clast.c:956-979 `clast_minmax`. `sort` is `clast_reduction_sort` (`qsort` with
`clast_expr_cmp`, source/clast.c:489-497): all that is used of it is that it permutes its argument. -/
def minmax (sort : List Expr → List Expr) (rows : List Row) (l : Nat) (max : Bool)
    (guard : Option Nat) (lowerBound : Bool) (noEarlier : Bool) (stride : Option CStride)
    (vars : Nat → Expr) : Option Expr :=
  let elts := collectBounds rows l max guard lowerBound noEarlier stride vars
  if elts.isEmpty then none else some (.red (if max then .max else .min) (sort elts))

/-- An insertion sort with `clast_expr_cmp`, as one possible `qsort` (source/clast.c:494-497). -/
def qsortExpr (icmp : Int → Int → Int) (l : List Expr) : List Expr :=
  l.foldr (fun e acc => acc.takeWhile (fun x => exprCmp icmp x e < 0) ++ e ::
    acc.dropWhile (fun x => exprCmp icmp x e < 0)) []

end Verif.Bound
