import Verif.Model.ClastMem

/-!
# Memory of clast statements

Statements with the addresses of their nodes, in the memory of Model/ClastMem.lean.  The domain, the statement
and the names a node holds a reference to are not modelled here.
-/

namespace Verif.ClastFree
open Verif.Clast Verif.ClastGen Verif.ClastMem

/-- The statements of `Verif.ClastGen.Stmt` with the addresses of their nodes (include/cloog/clast.h:71-130).
    The substitutions of a user statement are assignments (source/clast.c:637-649), given by their addresses
    and right hand sides; `strs` are the strings of a loop that are not NULL (include/cloog/clast.h:108-116). -/
inductive HStmt
  | ass (a : Nat) (lhs : String) (rhs : HExpr)
  | user (a : Nat) (number : Nat) (subs : List (Nat × HExpr))
  | block (a : Nat) (body : List HStmt)
  | for_ (a : Nat) (it : String) (lb ub : Option HExpr) (stride : Int) (strs : List Nat) (body : List HStmt)
  | guard (a : Nat) (eqs : List (HExpr × HExpr × Int)) (body : List HStmt)

/-- The address of a statement. -/
def HStmt.addr : HStmt → Nat
  | .ass a _ _ => a
  | .user a _ _ => a
  | .block a _ => a
  | .for_ a _ _ _ _ _ _ => a
  | .guard a _ _ => a

/-- Read the node `a`, then go on. -/
def rd (a : Nat) (k : List Nat → Option (List Nat)) (m : List Nat) : Option (List Nat) :=
  if a ∈ m then k m else none

/-- `free_clast_assignment` (source/clast.c:172-178). -/
def freeAss (a : Nat) (e : HExpr) : List Nat → Option (List Nat) :=
  rd a fun m => (freeE e m).bind (release a)

/-- `cloog_clast_free` (source/clast.c:373-381) of the substitutions of a user statement: `next` is read
    before the assignment is freed. -/
def freeSubs : List (Nat × HExpr) → List Nat → Option (List Nat)
  | [], m => some m
  | s :: ss, m => rd s.1 (fun m => (freeAss s.1 s.2 m).bind (freeSubs ss)) m

/-- The loop of `free_clast_guard` (source/clast.c:294-297); the guard `g` is read in each round. -/
def freeEqs (g : Nat) : List (HExpr × HExpr × Int) → List Nat → Option (List Nat)
  | [], m => some m
  | q :: qs, m =>
    rd g (fun m => (freeE q.1 m).bind (rd g fun m => (freeE q.2.1 m).bind (freeEqs g qs))) m

/-- The strings of a loop in `free_clast_for` (source/clast.c:251-254). -/
def freeStrs (f : Nat) : List Nat → List Nat → Option (List Nat)
  | [], m => some m
  | s :: ss, m => rd f (fun m => (release s m).bind (freeStrs f ss)) m

mutual
/-- `free_clast_stmt` and the functions it calls (source/clast.c:172-178, 195-203, 221-227, 242-256,
    288-299, 366-371). -/
def freeS : HStmt → List Nat → Option (List Nat)
  | .ass a _ e, m => freeAss a e m
  | .user a _ subs, m => rd a (fun m => (freeSubs subs m).bind (release a)) m
  | .block a body, m => rd a (fun m => (freeSs body m).bind (release a)) m
  | .for_ a _ lb ub _ strs body, m =>
    rd a (fun m => (freeO lb m).bind (rd a fun m => (freeO ub m).bind (rd a fun m =>
      (freeSs body m).bind fun m => (freeStrs a strs m).bind (release a)))) m
  | .guard a eqs body, m =>
    rd a (fun m => (freeSs body m).bind fun m => (freeEqs a eqs m).bind (release a)) m
/-- `cloog_clast_free` (source/clast.c:373-381): `next` is read before the statement is freed. -/
def freeSs : List HStmt → List Nat → Option (List Nat)
  | [], m => some m
  | s :: ss, m => rd s.addr (fun m => (freeS s m).bind (freeSs ss)) m
end

/-! ## Building a clast with the constructors -/

mutual
/-- An expression made with `new_clast_name`, `new_clast_term`, `new_clast_binary` and `new_clast_reduction`
    (source/clast.c:73-114), arguments first for terms and binary expressions. -/
def buildE (fresh : List Nat → Nat) : Expr → List Nat → HExpr × List Nat
  | .name s, m => (.name (fresh m) s, fresh m :: m)
  | .cst c, m => (.cst (fresh m) c, fresh m :: m)
  | .term c v, m =>
    let r := buildE fresh v m
    (.term (fresh r.2) c r.1, fresh r.2 :: r.2)
  | .bin t l k, m =>
    let r := buildE fresh l m
    (.bin (fresh r.2) t r.1 k, fresh r.2 :: r.2)
  | .red t es, m =>
    let r := buildEs fresh es (fresh m :: m)
    (.red (fresh m) t r.1, r.2)
/-- The elements of a reduction. -/
def buildEs (fresh : List Nat → Nat) : List Expr → List Nat → List HExpr × List Nat
  | [], m => ([], m)
  | e :: es, m =>
    let r := buildE fresh e m
    let q := buildEs fresh es r.2
    (r.1 :: q.1, q.2)
end

/-- An expression that can be NULL. -/
def buildO (fresh : List Nat → Nat) : Option Expr → List Nat → Option HExpr × List Nat
  | none, m => (none, m)
  | some e, m => (some (buildE fresh e m).1, (buildE fresh e m).2)

/-- The substitutions of a user statement (`new_clast_assignment`, source/clast.c:180-189). -/
def buildSubs (fresh : List Nat → Nat) : List Expr → List Nat → List (Nat × HExpr) × List Nat
  | [], m => ([], m)
  | e :: es, m =>
    let r := buildE fresh e m
    let q := buildSubs fresh es (fresh r.2 :: r.2)
    ((fresh r.2, r.1) :: q.1, q.2)

/-- The equations of a guard. -/
def buildEqs (fresh : List Nat → Nat) : List Eqn → List Nat → List (HExpr × HExpr × Int) × List Nat
  | [], m => ([], m)
  | e :: es, m =>
    let r := buildE fresh e.lhs m
    let s := buildE fresh e.rhs r.2
    let q := buildEqs fresh es s.2
    ((r.1, s.1, e.sign) :: q.1, q.2)

mutual
/-- A statement made with the constructors (source/clast.c:180-189, 205-215, 229-236, 258-282, 301-315);
    the strings of a loop are NULL. -/
def buildS (fresh : List Nat → Nat) : Stmt → List Nat → HStmt × List Nat
  | .ass x e, m =>
    let r := buildE fresh e m
    (.ass (fresh r.2) x r.1, fresh r.2 :: r.2)
  | .user n args, m =>
    let r := buildSubs fresh args m
    (.user (fresh r.2) n r.1, fresh r.2 :: r.2)
  | .block b, m =>
    let r := buildSs fresh b (fresh m :: m)
    (.block (fresh m) r.1, r.2)
  | .for_ it lb ub k b, m =>
    let l := buildO fresh lb m
    let u := buildO fresh ub l.2
    let r := buildSs fresh b (fresh u.2 :: u.2)
    (.for_ (fresh u.2) it l.1 u.1 k [] r.1, r.2)
  | .guard qs b, m =>
    let q := buildEqs fresh qs (fresh m :: m)
    let r := buildSs fresh b q.2
    (.guard (fresh m) q.1 r.1, r.2)
/-- Statements linked by `next`. -/
def buildSs (fresh : List Nat → Nat) : List Stmt → List Nat → List HStmt × List Nat
  | [], m => ([], m)
  | s :: ss, m =>
    let r := buildS fresh s m
    let q := buildSs fresh ss r.2
    (r.1 :: q.1, q.2)
end

end Verif.ClastFree
