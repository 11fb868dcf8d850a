import Verif.Model.Clast

/-!
# Scalar dimensions: comparison and sort (source/loop.c:1413-1541)

A loop enters only through the vector `scaldims` of scalar values of its block, given as a function of
the position.  `icmp` is `cloog_int_cmp`.
-/

namespace Verif.ScalarSort

/-- source/loop.c:1413-1416 `level_is_constant`; `scaldims` has `nb_scattdims` entries. -/
def levelIsConstant (level scalar : Nat) (scaldims : List Bool) : Bool :=
  decide (0 < level) && decide (level + scalar ≤ scaldims.length) &&
    scaldims.getD (level + scalar - 1) false

/-- source/loop.c:1440-1445: the `while` loop of `cloog_loop_constant_cmp`, at most `n` iterations. -/
def constantCmpN (icmp : Int → Int → Int) (level : Nat) (scaldims : List Bool) (a b : Nat → Int) :
    Nat → Nat → Int
  | 0, _ => 0
  | n + 1, scalar =>
    if levelIsConstant level scalar scaldims then
      if icmp (a scalar) (b scalar) ≠ 0 then icmp (a scalar) (b scalar)
      else constantCmpN icmp level scaldims a b n (scalar + 1)
    else 0

/-- source/loop.c:1434-1447 `cloog_loop_constant_cmp`, on the scalar vectors of the two blocks. The loop
ends after at most `nb_scattdims` iterations because `level_is_constant` fails beyond. -/
def constantCmp (icmp : Int → Int → Int) (level : Nat) (scaldims : List Bool) (a b : Nat → Int)
    (scalar : Nat) : Int := constantCmpN icmp level scaldims a b (scaldims.length + 1) scalar

/-- source/loop.c:1470-1475 `cloog_loop_scalar_gt`. -/
def scalarGt (icmp : Int → Int → Int) (level : Nat) (scaldims : List Bool) (scalar : Nat)
    (a b : Nat → Int) : Bool := constantCmp icmp level scaldims a b scalar > 0

/-- source/loop.c:1495-1500 `cloog_loop_scalar_eq`. -/
def scalarEq (icmp : Int → Int → Int) (level : Nat) (scaldims : List Bool) (scalar : Nat)
    (a b : Nat → Int) : Bool := constantCmp icmp level scaldims a b scalar == 0

/-- source/loop.c:1527-1537: one execution of the `for` loop of `cloog_loop_scalar_sort`, from the
position `current` (element `x`, followed by `l`) on; the flag is `ok`. The C code must not be called with an empty list; here the
empty list is returned. -/
def passFrom {α : Type} (gt : α → α → Bool) : α → List α → List α × Bool
  | x, [] => ([x], true)
  | x, y :: l =>
    if gt x y then (y :: (passFrom gt x l).1, false)
    else (x :: (passFrom gt y l).1, (passFrom gt y l).2)

/-- source/loop.c:1527-1537: the whole `for` loop. -/
def pass {α : Type} (gt : α → α → Bool) : List α → List α × Bool
  | [] => ([], true)
  | x :: l => passFrom gt x l

/-- source/loop.c:1521-1541 `cloog_loop_scalar_sort`: the `do ... while (!ok)` loop, executed at most
`fuel` times (`none`: still running). -/
def bubble {α : Type} (gt : α → α → Bool) : Nat → List α → Option (List α)
  | 0, _ => none
  | fuel + 1, l => if (pass gt l).2 then some (pass gt l).1 else bubble gt fuel (pass gt l).1

end Verif.ScalarSort
