import Verif.Model.ClastGen
import Mathlib.Logic.Function.Basic

/-!
# Meaning of the generated program and of the loop tree

Specification-side definitions: how the statements of a clast execute when printed as C
(source/pprint.c), what a loop tree is supposed to execute, and what a stride promises.
-/

namespace Verif.ClastGen

open Verif.IntOps Verif.Clast Verif.Bound

/-! ## The generated program -/

/-- The comparison printed for an equation (source/pprint.c:268-278): `>=`, `==` or `<=`. -/
def Eqn.holds (env : Env) (q : Eqn) : Prop :=
  if q.sign > 0 then q.rhs.eval env ≤ q.lhs.eval env
  else if q.sign = 0 then q.lhs.eval env = q.rhs.eval env
  else q.lhs.eval env ≤ q.rhs.eval env

instance (env : Env) (q : Eqn) : Decidable (q.holds env) := by unfold Eqn.holds; infer_instance

/-- One executed statement instance: number and argument values. -/
structure Event where
  stmt : Nat
  args : List Int
  deriving DecidableEq, Repr

mutual
/-- Big-step execution of a statement list in the printed C program: environment before, statement
instances executed, environment after (source/pprint.c:280-680). Loops without a lower or upper bound
do not have an execution. -/
inductive Exec : List Stmt → Env → List Event → Env → Prop
  | nil (env) : Exec [] env [] env
  | ass {x e rest env tr env'} : Exec rest (Function.update env x (e.eval env)) tr env' →
      Exec (.ass x e :: rest) env tr env'
  | user {s args rest env tr env'} : Exec rest env tr env' →
      Exec (.user s args :: rest) env (⟨s, args.map (Expr.eval env)⟩ :: tr) env'
  | block {body rest env t1 env1 t2 env2} : Exec body env t1 env1 → Exec rest env1 t2 env2 →
      Exec (.block body :: rest) env (t1 ++ t2) env2
  | guardT {qs body rest env t1 env1 t2 env2} : (∀ q ∈ qs, q.holds env) → Exec body env t1 env1 →
      Exec rest env1 t2 env2 → Exec (.guard qs body :: rest) env (t1 ++ t2) env2
  | guardF {qs body rest env tr env'} : ¬ (∀ q ∈ qs, q.holds env) → Exec rest env tr env' →
      Exec (.guard qs body :: rest) env tr env'
  | for_ {it lb ub s body rest env t1 env1 t2 env2} :
      ForExec it ub s body (Function.update env it (lb.eval env)) t1 env1 →
      Exec rest env1 t2 env2 →
      Exec (.for_ it (some lb) (some ub) s body :: rest) env (t1 ++ t2) env2
/-- The iterations of `for (...; it <= ub; it += s) body`, from the test on. -/
inductive ForExec : String → Expr → Int → List Stmt → Env → List Event → Env → Prop
  | done {it ub s body env} : ¬ env it ≤ ub.eval env → ForExec it ub s body env [] env
  | step {it ub s body env t1 env1 t2 env2} : env it ≤ ub.eval env → Exec body env t1 env1 →
      ForExec it ub s body (Function.update env1 it (env1 it + s)) t2 env2 →
      ForExec it ub s body env (t1 ++ t2) env2
end

/-! ## Domains -/

/-- Values of the existentials: floor of their definition at the iterators `x`, parameters `p` and
earlier existentials. -/
def divVals (nIter nDiv : Nat) (x p : Nat → Int) : List DivDef → List Int → List Int
  | [], acc => acc
  | d :: ds, acc =>
    divVals nIter nDiv x p ds (acc ++ [(dotFrom d.num 0 (fun c =>
      if c < nIter then x c else if c < nIter + nDiv then acc.getD (c - nIter) 0
      else p (c - nIter - nDiv)) + d.cst) / d.den])

/-- The values of all columns of a domain, given the iterators and the parameters. -/
def Dom.pt (D : Dom) (x p : Nat → Int) : Point := fun c =>
  if c < D.nIter then x c
  else if c < D.nIter + D.divs.length then
    (divVals D.nIter D.divs.length x p D.divs []).getD (c - D.nIter) 0
  else p (c - D.nIter - D.divs.length)

/-- The points of a domain. -/
def Dom.mem (D : Dom) (x p : Nat → Int) : Prop := ∀ r ∈ D.rows, r.holds (D.pt x p)

/-! ## Strides -/

/-- `e + k i` for a stride constraint with columns as in `Stride.con`, where `pt` gives the values of
`nb` columns and `nPar` parameters after them. -/
def Stride.conVal (c : Row) (col nb nPar : Nat) (pt : Point) : Int :=
  dotFrom (c.coef.take (col + 1)) 0 pt + dotFrom (c.coef.drop (c.coef.length - nPar)) nb pt + c.cst

/-- The promise made by a stride on column `col` (source/clast.c:1261-1285): the iterator is congruent
to the offset modulo the stride, or satisfies the stride constraint `e + k i = 0 mod stride`, in which
case the factor is an inverse of `-k`. -/
def Stride.holds (s : Stride) (col nb nPar : Nat) (pt : Point) : Prop :=
  match s.con with
  | none => s.stride ∣ pt col - s.offset
  | some c => nPar ≤ c.coef.length ∧ col + 1 ≤ c.coef.length - nPar ∧
      s.stride ∣ s.factor * c.at col + 1 ∧
      s.stride ∣ Stride.conVal c col nb nPar pt

/-! ## The loop tree -/

/-- The stride condition on a value of the loop's own iterator, in terms of iterators and parameters. -/
def strideOk (st : Option Stride) (col nPar : Nat) (x p : Nat → Int) : Prop :=
  match st with
  | none => True
  | some s => s.holds col (col + 1) nPar (fun c => if c < col + 1 then x c else p (c - (col + 1)))

/-- Instances of a statement block: arguments are the iterators from `nScat` to `n - 1`. -/
def blockEvents (nScat : Nat) (block : List Nat) (n : Nat) (x : Nat → Int) : List Event :=
  block.map (fun s => ⟨s, ((List.range n).filter (fun i => nScat ≤ i)).map x⟩)

mutual
/-- What a list of loops at level `L` executes at iterators `x` (only those before column `L-1`
matter) and parameters `p`: each loop in turn. -/
inductive TreeRun (nm : Names) (p : Nat → Int) : Nat → List Loop → (Nat → Int) → List Event → Prop
  | nil {L x} : TreeRun nm p L [] x []
  | cons {L l ls x t1 t2} : LoopRun nm p L l x t1 → TreeRun nm p L ls x t2 →
      TreeRun nm p L (l :: ls) x (t1 ++ t2)
/-- What one loop executes. A loop whose domain has the dimension `L` scans, in increasing order, all
values of iterator `L-1` in its domain that satisfy the stride; a loop without that dimension tests
its domain and executes its block and inner loops. -/
inductive LoopRun (nm : Names) (p : Nat → Int) : Nat → Loop → (Nat → Int) → List Event → Prop
  | scan {L D st otl block inner x vals tr} : 0 < L → L ≤ D.nIter →
      vals.Pairwise (· < ·) →
      (∀ v, v ∈ vals ↔ D.mem (Function.update x (L - 1) v) p ∧
        strideOk st (L - 1) nm.nPar (Function.update x (L - 1) v) p) →
      ValsRun nm p L block inner x vals tr →
      LoopRun nm p L (.mk D st otl block inner) x tr
  | leaf {L D st otl block inner x tr} : ¬ (0 < L ∧ L ≤ D.nIter) → D.mem x p →
      TreeRun nm p (L + 1) inner x tr →
      LoopRun nm p L (.mk D st otl block inner) x (blockEvents nm.nScat block (L - 1) x ++ tr)
  | skip {L D st otl block inner x} : ¬ (0 < L ∧ L ≤ D.nIter) → ¬ D.mem x p →
      LoopRun nm p L (.mk D st otl block inner) x []
/-- The iterations for a list of values. -/
inductive ValsRun (nm : Names) (p : Nat → Int) :
    Nat → List Nat → List Loop → (Nat → Int) → List Int → List Event → Prop
  | nil {L block inner x} : ValsRun nm p L block inner x [] []
  | cons {L block inner x v vs t1 t2} :
      TreeRun nm p (L + 1) inner (Function.update x (L - 1) v) t1 →
      ValsRun nm p L block inner x vs t2 →
      ValsRun nm p L block inner x (v :: vs)
        (blockEvents nm.nScat block L (Function.update x (L - 1) v) ++ t1 ++ t2)
end

end Verif.ClastGen
