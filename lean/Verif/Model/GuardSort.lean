import Verif.Model.ClastGen

/-!
# The order of the conditions of a guard
-/

namespace Verif.GuardSort
open Verif.Clast Verif.ClastGen

/-- source/clast.c:499-514 `qsort_eq_cmp`. -/
def eqnCmp (icmp : Int → Int → Int) (a b : Eqn) : Int :=
  let c := exprCmp icmp a.lhs b.lhs
  if c ≠ 0 then c
  else
    let c := exprCmp icmp a.rhs b.rhs
    if c ≠ 0 then c else a.sign - b.sign

/-- An insertion sort, as one possible `qsort` (source/clast.c:519-522 `clast_guard_sort`). -/
def insSort {α : Type} (cmp : α → α → Int) (l : List α) : List α :=
  l.foldr (fun e acc => acc.takeWhile (fun x => cmp x e < 0) ++ e :: acc.dropWhile (fun x => cmp x e < 0)) []

end Verif.GuardSort
