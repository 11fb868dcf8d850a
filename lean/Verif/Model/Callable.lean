import Verif.Model.ClastGen

/-!
# The bounds given to loops by the option `-callable`
-/

namespace Verif.Callable
open Verif.Clast Verif.ClastGen

/-- source/clast.c:116-145 `clast_for_bound`: first and last value of a loop after it. `new_clast_term` with NULL
(source/clast.c:81-90) is a constant. -/
def forBound : Option Expr → Option Expr → Option Expr × Option Expr
  | some l, some u => (some l, some u)
  | some l, none => (some l, some (.red .sum [.cst 1000, .term 1 (copy l)]))
  | none, some u => (some (.red .sum [.cst (-1000), .term 1 (copy u)]), some u)
  | none, none => (some (.cst (-1000)), some (.cst 1000))

mutual
/-- source/clast.c:1536-1539 (`insert_equation_as_loop`), 1754-1757 (`insert_for`) under the option `callable`. Both
functions change the bounds just after they make the loop; nothing reads the bounds again while the clast is built, so
the change is made here to all loops at the end. -/
def bounded : Stmt → Stmt
  | .for_ it lb ub k b => .for_ it (forBound lb ub).1 (forBound lb ub).2 k (boundeds b)
  | .guard q b => .guard q (boundeds b)
  | .block b => .block (boundeds b)
  | .ass x e => .ass x e
  | .user s a => .user s a
/-- The same for lists of statements. -/
def boundeds : List Stmt → List Stmt
  | [] => []
  | s :: ss => bounded s :: boundeds ss
end

/-- source/clast.c:1911-1943 `cloog_clast_create` under the option `callable`. -/
def clastCreateCallable (cx : Ctx) (icmp : Int → Int → Int) (loops : List Loop) : Option (List Stmt) :=
  (clastCreate cx icmp loops).map boundeds

end Verif.Callable
