import Verif.Model.Callable

/-!
# Memory of clast expressions

Nodes have the address at which they are allocated; the memory is the list of addresses in use.  Reading a node
that is not in use, or freeing it, fails (`none`).  `malloc` is a parameter that may choose any address, also
one that has been freed; it does not fail.  The GMP integers of a node are initialised and cleared with it
(source/clast.c:85-86, 98-99, 324, 331) and not modelled apart; names are not owned by expressions.
-/

namespace Verif.ClastMem
open Verif.Clast Verif.Callable

/-- The expressions of `Verif.Clast.Expr` with the addresses of their nodes
    (include/cloog/clast.h:14-55). -/
inductive HExpr
  | name (a : Nat) (s : String)
  | cst (a : Nat) (c : Int)
  | term (a : Nat) (c : Int) (v : HExpr)
  | bin (a : Nat) (t : BinType) (lhs : HExpr) (rhs : Int)
  | red (a : Nat) (t : RedType) (elts : List HExpr)

mutual
/-- `clast_expr_copy` (source/clast.c:528-556), for an expression that is not NULL: the arguments are
    copied before `malloc` is called for a term or a binary expression, after it for a reduction. -/
def copyE (fresh : List Nat → Nat) : HExpr → List Nat → Option (HExpr × List Nat)
  | .name a s, m => if a ∈ m then some (.name (fresh m) s, fresh m :: m) else none
  | .cst a c, m => if a ∈ m then some (.cst (fresh m) c, fresh m :: m) else none
  | .term a c v, m =>
    if a ∈ m then (copyE fresh v m).bind fun r => some (.term (fresh r.2) c r.1, fresh r.2 :: r.2)
    else none
  | .bin a t l k, m =>
    if a ∈ m then (copyE fresh l m).bind fun r => some (.bin (fresh r.2) t r.1 k, fresh r.2 :: r.2)
    else none
  | .red a t es, m =>
    if a ∈ m then (copyL fresh es (fresh m :: m)).bind fun r => some (.red (fresh m) t r.1, r.2)
    else none
/-- The element loop of `clast_expr_copy` (source/clast.c:545-546). -/
def copyL (fresh : List Nat → Nat) : List HExpr → List Nat → Option (List HExpr × List Nat)
  | [], m => some ([], m)
  | e :: es, m =>
    (copyE fresh e m).bind fun r => (copyL fresh es r.2).bind fun q => some (r.1 :: q.1, q.2)
end

/-- `free` of one node. -/
def release (a : Nat) (m : List Nat) : Option (List Nat) := if a ∈ m then some (m.erase a) else none

mutual
/-- `free_clast_expr` and the functions it calls (source/clast.c:317-364), for an expression that is not
    NULL: the node is read, its arguments are freed, then the node is freed. -/
def freeE : HExpr → List Nat → Option (List Nat)
  | .name a _, m => release a m
  | .cst a _, m => release a m
  | .term a _ v, m => if a ∈ m then (freeE v m).bind (release a) else none
  | .bin a _ l _, m => if a ∈ m then (freeE l m).bind (release a) else none
  | .red a _ es, m => (freeL a es m).bind (release a)
/-- The loop of `free_clast_reduction` (source/clast.c:339-340); the reduction `r` is read in each round. -/
def freeL (r : Nat) : List HExpr → List Nat → Option (List Nat)
  | [], m => some m
  | e :: es, m => if r ∈ m then (freeE e m).bind (freeL r es) else none
end

/-- `free_clast_expr` of a pointer that can be NULL (source/clast.c:346-347). -/
def freeO : Option HExpr → List Nat → Option (List Nat)
  | none, m => some m
  | some e, m => freeE e m

/-- The bounds of a loop in `free_clast_for` (source/clast.c:247-248). -/
def freeBounds (b : Option HExpr × Option HExpr) (m : List Nat) : Option (List Nat) :=
  (freeO b.1 m).bind (freeO b.2)

/-- `clast_for_bound` (source/clast.c:116-145): first and last value of the loop, and the memory. -/
def forBoundH (fresh : List Nat → Nat) :
    Option HExpr → Option HExpr → List Nat → Option ((Option HExpr × Option HExpr) × List Nat)
  | some l, none, m =>
    let r := fresh m
    (copyE fresh l (r :: m)).bind fun q =>
      let t := fresh q.2
      let c := fresh (t :: q.2)
      some ((some l, some (.red r .sum [.cst c 1000, .term t 1 q.1])), c :: t :: q.2)
  | none, some u, m =>
    let r := fresh m
    (copyE fresh u (r :: m)).bind fun q =>
      let t := fresh q.2
      let c := fresh (t :: q.2)
      some ((some (.red r .sum [.cst c (-1000), .term t 1 q.1]), some u), c :: t :: q.2)
  | none, none, m =>
    let u := fresh m
    let l := fresh (u :: m)
    some ((some (.cst l (-1000)), some (.cst u 1000)), l :: u :: m)
  | some l, some u, m => some ((some l, some u), m)

/-- The bounds of a loop made from an equality without a lower constraint in `insert_equation_as_loop`
    (source/clast.c:1531-1540), from the bound `e2` of the equality. -/
def equationBounds (fresh : List Nat → Nat) (callable : Bool) (e2 : HExpr) (m : List Nat) :
    Option ((Option HExpr × Option HExpr) × List Nat) :=
  (copyE fresh e2 m).bind fun r =>
    if callable then forBoundH fresh (some r.1) (some e2) r.2 else some ((some r.1, some e2), r.2)

end Verif.ClastMem
