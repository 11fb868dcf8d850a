import Verif.Model.ClastGen

/-!
# The arrays of the code generator

`Model/ClastGen` gives the elements of sums, minima, maxima and conditions as lists.  Here the functions that
build them are repeated with the arrays of the C code: an array has the length it is allocated with, a write
behind its end is undefined (`none`), and so is the use of an element that was never set.
-/

namespace Verif.Arrays
open Verif.Bound Verif.Clast Verif.ClastGen Verif.IntOps

/-- The array of a `clast_reduction` (source/clast.c:103-114) or of a `clast_guard` (301-315): its allocated
length, and the elements set so far.  They are always set in order (`elts[nb_elts++]`, `eq[d->n]`). -/
structure Arr (α : Type) where
  cap : Nat
  elts : List α

/-- source/clast.c:103-114, 301-315: a new array; all elements are NULL. -/
def Arr.new (α : Type) (n : Nat) : Arr α := ⟨n, []⟩

/-- `a[n++] = e`. -/
def Arr.put {α : Type} (a : Arr α) (e : α) : Option (Arr α) :=
  if a.elts.length < a.cap then some ⟨a.cap, a.elts ++ [e]⟩ else none

/-- Use of all elements when `n` is the allocated length; none may be NULL. -/
def Arr.all {α : Type} (a : Arr α) : Option (List α) := if a.elts.length = a.cap then some a.elts else none

/-! ## Bounds -/

/-- source/clast.c:692-694, the columns without the constant: number of elements counted. -/
def countTerms (l : Nat) : List Int → Nat → Nat
  | [], _ => 0
  | c :: cs, i => (if i ≠ l ∧ sgn c ≠ 0 then 1 else 0) + countTerms l cs (i + 1)

/-- source/clast.c:699-713. -/
def putTerms (neg : Bool) (l : Nat) (vars : Nat → Expr) : List Int → Nat → Arr Expr → Option (Arr Expr)
  | [], _, a => some a
  | c :: cs, i, a =>
    if i = l ∨ sgn c = 0 then putTerms neg l vars cs (i + 1) a
    else (a.put (.term (if neg then -c else c) (vars i))).bind (putTerms neg l vars cs (i + 1))

/-- source/clast.c:692-727, 740-741: the elements of the sum; empty if the array is given back because no column is
left. -/
def boundArr (r : Row) (l : Nat) (vars : Nat → Expr) : Option (List Expr) :=
  let neg : Bool := sgn (r.at l) > 0
  let num := if neg then -r.cst else r.cst
  (putTerms neg l vars r.coef 0 (Arr.new Expr (countTerms l r.coef 0 + if sgn r.cst = 0 then 0 else 1))).bind fun a =>
    if a.elts.length = 0 then some []
    else (if sgn num ≠ 0 then a.put (.cst num) else some a).bind Arr.all

/-- source/clast.c:671-795 `clast_bound_from_constraint`, as `Bound.boundFromConstraint`, with the array.  The outer
`none` is undefined behaviour, the inner one is NULL. -/
def boundA (r : Row) (l : Nat) (vars : Nat → Expr) : Option (Option Expr) :=
  let a := r.at l
  if sgn a = 0 then some none
  else (boundArr r l vars).map fun elts =>
    let neg : Bool := sgn a > 0
    let num := if neg then -r.cst else r.cst
    let den := if neg then a else -a
    if ¬ elts.isEmpty then
      let red := Expr.red .sum elts
      if ¬ (a = 1) ∧ ¬ (a = -1) then
        if !r.isEq then
          if sgn a > 0 then some (.bin .cdiv red den) else some (.bin .fdiv red den)
        else some (.bin .div red den)
      else some red
    else if sgn num = 0 then some (.cst num)
    else if ¬ (den = 1) then
      if !r.isEq then
        if isDivisibleBy num den then some (.cst (num.tdiv den))
        else
          let division := num.tdiv den
          if sgn num < 0 then
            if sgn a > 0 then some (.cst division) else some (.cst (division - 1))
          else
            if sgn a > 0 then some (.cst (division + 1)) else some (.cst division)
      else some (.bin .div (.cst num) den)
    else some (.cst num)

/-! ## Minima and maxima -/

/-- source/clast.c:842-852 `count_bounds` over all constraints. -/
def countBounds (valid : Row → Bool) : List Row → Nat
  | [] => 0
  | r :: rs => (if valid r then 1 else 0) + countBounds valid rs

/-- source/clast.c:904-928 `collect_bounds` over all constraints; `elt` builds the element, which may be NULL. -/
def putBounds (valid : Row → Bool) (elt : Row → Option (Option Expr)) :
    List Row → Arr (Option Expr) → Option (Arr (Option Expr))
  | [], a => some a
  | r :: rs, a =>
    if valid r then (elt r).bind fun e => (a.put e).bind (putBounds valid elt rs) else putBounds valid elt rs a

/-- source/clast.c:956-979 `clast_minmax`; the elements are sorted, which looks into all of them. -/
def minmaxArr (sort : List Expr → List Expr) (t : RedType) (valid : Row → Bool) (elt : Row → Option (Option Expr))
    (rows : List Row) : Option (Option Expr) :=
  if countBounds valid rows = 0 then some none
  else (putBounds valid elt rows (Arr.new (Option Expr) (countBounds valid rows))).bind fun a =>
    a.all.bind fun l => (l.mapM id).map fun l => some (.red t (sort l))

/-- source/clast.c:956-979 for a guard: no strides (source/clast.c:1133). -/
def minmaxA (sort : List Expr → List Expr) (rows : List Row) (l : Nat) (max : Bool) (guard : Option Nat)
    (vars : Nat → Expr) : Option (Option Expr) :=
  minmaxArr sort (if max then .max else .min) (fun r => validBound r l max guard true) (fun r => boundA r l vars) rows

/-- source/clast.c:904-928 `collect_bounds` for one constraint of a loop; as `ClastGen.loopBoundElt`. -/
def loopBoundEltA (cx : Ctx) (col : Nat) (max : Bool) (st : Option Stride) (vars : Nat → Expr) (r : Row) :
    Option (Option Expr) :=
  match max, st with
  | true, some s =>
    match s.con with
    | some c =>
      let q := cx.floorAff (strideDiv cx.nm.nPar s c col r)
      boundA (strideRow cx.nm.nPar s c col r q) col (strideVars (r.coef.length - cx.nm.nPar) vars q.2)
    | none => (boundA r col vars).map fun e => e.map (updLower ⟨s.stride, s.offset⟩)
  | _, _ => boundA r col vars

/-- source/clast.c:956-979 `clast_minmax` for a loop bound. -/
def loopBoundA (cx : Ctx) (rows : List Row) (col : Nat) (max : Bool) (st : Option Stride) (vars : Nat → Expr) :
    Option (Option Expr) :=
  minmaxArr cx.sort (if max then .max else .min) (fun r => validBound r col max none false)
    (loopBoundEltA cx col max st vars) rows

/-! ## Modulo guards -/

/-- source/clast.c:1382-1393: number of elements counted; the column of the modulo is set to 0. -/
def countNonzero : List Int → Nat
  | [] => 0
  | c :: cs => (if c = 0 then 0 else 1) + countNonzero cs

/-- source/clast.c:1410-1431. -/
def putModTerms (nm : Names) (nb : Nat) : List Int → Nat → Arr Expr → Option (Arr Expr)
  | [], _, a => some a
  | c :: cs, i, a =>
    if c = 0 then putModTerms nm nb cs (i + 1) a
    else (a.put (.term c (.name (if i < nb then nm.at_ i else nm.param (i - nb))))).bind (putModTerms nm nb cs (i + 1))

/-- source/clast.c:1410-1444: the array `a` is filled, then `r->n` becomes the number of elements that are set. -/
def modGuardEmitA (nm : Names) (nb : Nat) (pair : Bool) (bound m : Int) (lc : List Int × Int) (a : Arr Expr) :
    Option ModOut :=
  (putModTerms nm nb lc.1 0 a).bind fun a =>
    (if sgn lc.2 = 0 then some a else a.put (.cst lc.2)).map fun b =>
      if a.elts.length = 0 then
        if pair then (if lc.2 ≤ bound then .ok else .unsat) else (if sgn lc.2 = 0 then .ok else .unsat)
      else
        let r := Expr.red .sum b.elts
        if pair then .test ⟨.bin .mod r m, .cst bound, -1⟩ else .test ⟨.bin .mod r m, .cst 0, 0⟩

/-- source/clast.c:1395-1444: the array is allocated (1399) before the iterators with strides are eliminated
(1403-1408). -/
def modGuardReducedA (nm : Names) (strides : Nat → Option Stride) (k nb : Nat) (pair : Bool) (bound m : Int)
    (line : List Int) (cst : Int) : Option ModOut :=
  if line.all (· == 0) && cst == 0 then some .ok
  else modGuardEmitA nm nb pair bound m (eliminateAll nb strides m k (line, cst)) (Arr.new Expr (countNonzero line + 1))

/-- source/clast.c:1352-1445 `insert_modulo_guard_constraint`; as `ClastGen.modGuardConstraint`. -/
def modGuardConstraintA (nm : Names) (strides : Nat → Option Stride) (sl : Nat) (pair : Bool) (bound : Int) (c : Row)
    (col : Nat) : Option ModOut :=
  let lc := modGuardLine bound c col
  let m := -(lc.1.getD col 0)
  if 0 < m then
    modGuardReducedA nm strides (if col > sl then sl else col) (c.coef.length - nm.nPar) pair bound m
      ((lc.1.map (fun a => fdr a m)).set col 0) (fdr lc.2 m)
  else none

/-- source/clast.c:1466-1515 `insert_modulo_guard`; as `ClastGen.modGuard`. -/
def modGuardA (cx : Ctx) (D : Dom) (eqs : List (Nat × Row)) (strides : Nat → Option Stride)
    (sl : Nat) (upper : Row) (lower : Option Row) (col : Nat) : Option ModOut :=
  let v := upper.at col
  if v = 1 ∨ v = -1 then some .ok
  else
    let bound := match lower with | some lo => upper.cst + lo.cst | none => 0
    if (match lower with | some lo => decide (lo.at col - 1 = bound) | none => false) then some .ok
    else if col < D.nIter then
      match cx.reduce eqs col upper lower bound with
      | none => some .ok
      | some (c, b) => modGuardConstraintA cx.nm strides sl lower.isSome b c col
    else modGuardConstraintA cx.nm strides sl lower.isSome bound upper col

/-- source/clast.c:993-1034 `insert_extra_modulo_guards`; as `ClastGen.extraModGuards`. -/
def extraModGuardsA (cx : Ctx) (D : Dom) (L : Nat) (eqs : List (Nat × Row))
    (strides : Nat → Option Stride) (sl : Nat) : Nat → List Row → Option (List Row × List ModOut)
  | 0, rows => some (rows, [])
  | k + 1, rows =>
    let col := D.nIter + k
    match D.definingEquality rows col with
    | some u =>
      if Row.involvesOpt u (guardCol D L) then extraModGuardsA cx D L eqs strides sl k rows
      else do
        let o ← modGuardA cx D eqs strides sl u none col
        let (rows', os) ← extraModGuardsA cx D L eqs strides sl k (dropRow rows u)
        some (rows', o :: os)
    | none =>
      match D.definingInequalities cx.nm.nPar rows col with
      | some (u, l) =>
        if Row.involvesOpt u (guardCol D L) then extraModGuardsA cx D L eqs strides sl k rows
        else do
          let o ← modGuardA cx D eqs strides sl u (some l) col
          let (rows', os) ← extraModGuardsA cx D L eqs strides sl k (dropRow (dropRow rows u) l)
          some (rows', o :: os)
      | none => extraModGuardsA cx D L eqs strides sl k rows

/-! ## Guards -/

/-- source/clast.c:1102-1118: an equation for one constraint; its right-hand side must not be NULL. -/
def individualEqnA (r : Row) (i : Nat) (vars : Nat → Expr) : Option Eqn :=
  let c := r.at i
  let lhs := Expr.term (if c < 0 then -c else c) (vars i)
  let r' : Row := { r with coef := r.coef.set i (if c < 0 then -1 else 1) }
  let sign : Int := if r.isEq then 0 else if 0 < r'.at i then 1 else -1
  (boundA r' i vars).bind fun e => e.map fun rhs => ⟨lhs, rhs, sign⟩

/-- source/clast.c:1075-1140 `insert_guard_constraint`, run over the rows for one column; as `ClastGen.guardRows`. -/
def guardRowsA (cx : Ctx) (D : Dom) (L : Nat) (copy : List Row) (i : Nat) :
    List Row → Bool → Bool → Arr Eqn → Option (Arr Eqn)
  | [], _, _, a => some a
  | r :: rs, mn, mx, a =>
    if !r.involves i then guardRowsA cx D L copy i rs mn mx a
    else if (List.range i).any (fun k => r.involves k) then guardRowsA cx D L copy i rs mn mx a
    else if Row.involvesOpt r (guardCol D L) then guardRowsA cx D L copy i rs mn mx a
    else if L = 0 ∨ r.isEq then
      (individualEqnA r i (D.vars cx.nm)).bind fun q => (a.put q).bind (guardRowsA cx D L copy i rs mn mx)
    else if mx && r.isLower i then guardRowsA cx D L copy i rs mn mx a
    else if mn && r.isUpper i then guardRowsA cx D L copy i rs mn mx a
    else
      let up := !r.isLower i
      (minmaxA cx.sort copy i (!up) (guardCol D L) (D.vars cx.nm)).bind fun e => e.bind fun rhs =>
        (a.put ⟨.term 1 (D.vars cx.nm i), rhs, if up then -1 else 1⟩).bind
          (guardRowsA cx D L copy i rs (mn || up) (mx || !up))

/-- source/clast.c:1197-1202: the columns `i, i + 1, ...`, `n` of them. -/
def guardColsA (cx : Ctx) (D : Dom) (L : Nat) (copy : List Row) : Nat → Nat → Arr Eqn → Option (Arr Eqn)
  | 0, _, a => some a
  | n + 1, i, a => (guardRowsA cx D L copy i copy false false a).bind (guardColsA cx D L copy n (i + 1))

/-- source/clast.c:1184-1211: the array has an element for each constraint of the domain; `g->n` becomes the number
of elements that are set. -/
def guardEqnsA (cx : Ctx) (D : Dom) (L : Nat) (copy : List Row) : Option (List Eqn) :=
  (guardColsA cx D L copy (D.total cx.nm) 0 (Arr.new Eqn D.rows.length)).map Arr.elts

/-- source/clast.c:1170-1215 `insert_guard`; as `ClastGen.insertGuard`. -/
def insertGuardA (cx : Ctx) (D : Dom) (L : Nat) (eqs : List (Nat × Row))
    (strides : Nat → Option Stride) (sl : Nat) : Option (List Stmt → List Stmt) := do
  let (copy, outs) ← extraModGuardsA cx D L eqs strides sl D.divs.length D.rows
  let g ← guardEqnsA cx D L copy
  some (fun body =>
    outs.foldr ModOut.wrap (if g.isEmpty then body else [.guard (cx.gsort g) body]))

/-! ## Equations, loops and trees -/

/-- source/clast.c:1523-1617 `insert_equation`, `insert_equation_as_loop`; as `ClastGen.insertEquation`. -/
def insertEquationA (cx : Ctx) (D : Dom) (L : Nat) (eqs : List (Nat × Row))
    (strides : Nat → Option Stride) (upper : Row) (lower : Option Row) : Option Step := do
  let col := L - 1
  let vars := D.vars cx.nm
  if !cx.otl then
    let e2 ← (boundA upper col vars).bind id
    let e1 ← (match lower with
      | none => some (copy e2)
      | some lo => (boundA lo col vars).bind id)
    some ⟨true, fun body => [.for_ (cx.nm.at_ col) (some e1) (some e2)
      (strideStep (strides col)) body], none, true⟩
  else
    match ← modGuardA cx D eqs strides L upper lower col with
    | .unsat => some ⟨false, fun body => body, none, true⟩
    | o =>
      let e ← (boundA upper col vars).bind id
      match lower with
      | some _ => some ⟨true, fun body => o.wrap (assign cx col e body), none, true⟩
      | none =>
        if equalAllow cx L (eqType D cx.nm.nPar upper col) then
          some ⟨true, o.wrap, some upper, false⟩
        else some ⟨true, fun body => o.wrap (assign cx col e body), some upper, true⟩

/-- source/clast.c:1725-1765 `insert_for`; as `ClastGen.insertFor`. -/
def insertForA (cx : Ctx) (icmp : Int → Int → Int) (rows : List Row) (L : Nat) (otl : Bool)
    (st : Option Stride) (vars : Nat → Expr) : Option Step :=
  let col := L - 1
  (loopBoundA cx rows col true st vars).bind fun e1 => (loopBoundA cx rows col false st vars).bind fun e2 =>
  if isBiggerConstant e1 e2 then some ⟨false, fun body => body, none, true⟩
  else if e1.isSome && e2.isSome && cx.otl && exprEqual icmp e1 e2 then none
  else if otl then
    match e1, e2 with
    | some a, some b => some ⟨true, fun body => assign cx col a
        [.guard [⟨.term 1 (.name (cx.nm.at_ col)), b, -1⟩] body], none, true⟩
    | _, _ => none
  else some ⟨true, fun body => [.for_ (cx.nm.at_ col) e1 e2
      (strideStep st) body], none, true⟩

/-- source/clast.c:1867-1888; as `ClastGen.loopStep`. -/
def loopStepA (cx : Ctx) (icmp : Int → Int → Int) (D : Dom) (L : Nat) (otl : Bool)
    (eqs : List (Nat × Row)) (strides : Nat → Option Stride) : Option Step :=
  if 0 < L ∧ L ≤ D.nIter then
    match D.definingEquality D.rows (L - 1) with
    | some u => insertEquationA cx D L eqs strides u none
    | none =>
      match D.definingInequalities cx.nm.nPar D.rows (L - 1) with
      | some (u, l) => insertEquationA cx D L eqs strides u (some l)
      | none => insertForA cx icmp D.rows L otl (strides (L - 1)) (D.vars cx.nm)
  else some ⟨true, fun body => body, none, true⟩

mutual
/-- source/clast.c:1838-1900 `insert_loop`; as `ClastGen.insertLoop`.  The substitutions of the statements
(`insert_block`) use `clast_bound_from_constraint`, whose array is the subject of `boundA`. -/
def insertLoopA (cx : Ctx) (icmp : Int → Int → Int) (L : Nat) (eqs : List (Nat × Row))
    (strides : Nat → Option Stride) : Loop → Option (List Stmt)
  | .mk D st otl block inner => do
    let strides' := if 0 < L then Function.update strides (L - 1) st else strides
    let g ← insertGuardA cx D L eqs strides' L
    let s ← loopStepA cx icmp D L otl eqs strides'
    if !s.go then some (g (s.wrap []))
    else
      let eqs' := recordEq L eqs s.rec_
      let rest ← insertLoopsA cx icmp (L + 1) eqs' strides' inner
      some (g (s.wrap (insertBlock cx eqs' block (L + (if isEquality D L then 1 else 0) - 1) ++ rest)))
/-- source/clast.c:1902-1907. -/
def insertLoopsA (cx : Ctx) (icmp : Int → Int → Int) (L : Nat) (eqs : List (Nat × Row))
    (strides : Nat → Option Stride) : List Loop → Option (List Stmt)
  | [] => some []
  | l :: ls => do
    let a ← insertLoopA cx icmp L eqs strides l
    let b ← insertLoopsA cx icmp L eqs strides ls
    some (a ++ b)
end

/-- source/clast.c:1911-1943 `cloog_clast_create`. -/
def clastCreateA (cx : Ctx) (icmp : Int → Int → Int) (loops : List Loop) : Option (List Stmt) :=
  insertLoopsA cx icmp 0 [] (fun _ => none) loops

end Verif.Arrays
