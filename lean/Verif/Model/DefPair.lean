import Verif.Model.EqTable

/-!
# The matrix backend: the constraints that define a variable

Model of source/matrix/constraintset.c:68-175.  Rows are those of `EqTable`.  The constraints returned
are pointers into the matrix; here they are the rows themselves, and `cloog_constraint_invalid` is
`none`.  The allocation of the returned objects is not modelled.  Integers are exact.  Reads outside a
row give 0 (the theorems assume rows as long as the matrix is wide, and a level that is the column of an
iterator).
-/

namespace Verif.DefPair
open Verif.IntOps Verif.EqTable

/-- `cloog_constraint_set_contains_level` (source/matrix/constraintset.c:68-72). -/
def containsLevel (ncol level nbPar : Int) : Bool := decide (ncol - 2 - nbPar ≥ level)

/-- `cloog_constraint_set_defining_equality` (source/matrix/constraintset.c:79-94). -/
def definingEquality (level : Nat) : List Row → Option Row
  | [] => none
  | r :: rest => if at_ r 0 = 0 ∧ at_ r level ≠ 0 then some r else definingEquality level rest

/-- The four tests that end the search at a row that has the level
    (source/matrix/constraintset.c:123-131 and 135-143). -/
def bad (level nbIter : Nat) (r : Row) : Bool :=
  decide (at_ r 0 = 0) || decide (at_ r level = 1) || decide (at_ r level = -1) ||
    (seqFirstNonZero ((r.drop (level + 1)).take ((1 + nbIter) - (level + 1)))).isSome

/-- The loop on `j` (source/matrix/constraintset.c:132-170) for the row `p` with number `i`, over the
    rows after it.  `none`: the loop ran to its end; `some none`: an invalid constraint was returned;
    `some (some (u, l))`: `u` was returned and `*lower` is `l`. -/
def inner (level nbIter len : Nat) (p : Row) : List Row → Option (Option (Row × Row))
  | [] => none
  | q :: rest =>
    if at_ q level = 0 then inner level nbIter len p rest
    else if bad level nbIter q then some none
    else if at_ p (1 + len) + at_ q (1 + len) < 0 ∨
        cabs (at_ p (1 + len) + at_ q (1 + len)) ≥ cabs (at_ p level) then some none
    else if ¬ seqIsNeg ((p.drop 1).take len) ((q.drop 1).take len) then some none
    else if rest.any (fun r => decide (at_ r level ≠ 0)) then some none
    else if at_ p level > 0 then some (some (q, p))
    else some (some (p, q))

/-- The loop on `i` (source/matrix/constraintset.c:120-173). -/
def outer (level nbIter len : Nat) : List Row → Option (Row × Row)
  | [] => none
  | p :: rest =>
    if at_ p level = 0 then outer level nbIter len rest
    else if bad level nbIter p then none
    else match inner level nbIter len p rest with
      | some res => res
      | none => outer level nbIter len rest

/-- `cloog_constraint_set_defining_inequalities` (source/matrix/constraintset.c:110-175) for a matrix of
    `ncol` columns: the upper bound and the lower bound. -/
def definingInequalities (ncol level nbPar : Nat) (m : List Row) : Option (Row × Row) :=
  outer level (ncol - 2 - nbPar) (ncol - 2) m

end Verif.DefPair
