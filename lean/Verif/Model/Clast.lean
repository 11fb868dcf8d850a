import Verif.Model.IntOps

/-!
# CLooG abstract syntax trees: expressions

`struct clast_expr` and its evaluation in the generated C program.
-/

namespace Verif.Clast

open Verif.IntOps

/-- include/cloog/clast.h `enum clast_red_type`. -/
inductive RedType | sum | min | max
  deriving DecidableEq, Repr

/-- include/cloog/clast.h `enum clast_bin_type`. -/
inductive BinType | fdiv | cdiv | div | mod
  deriving DecidableEq, Repr

/-- include/cloog/clast.h `struct clast_expr` and its four variants.
`clast_term` with a NULL `var` is `cst`, with a non-NULL one `term`. A NULL `clast_expr *` is
represented by `Option Expr` where it can occur. -/
inductive Expr
  | name (s : String)
  | cst (c : Int)
  | term (c : Int) (v : Expr)
  | bin (t : BinType) (lhs : Expr) (rhs : Int)
  | red (t : RedType) (elts : List Expr)
  deriving Repr

mutual
/-- Structural equality of expressions, used only to evaluate examples. -/
def Expr.decEq : (a b : Expr) → Decidable (a = b)
  | .name a, .name b => if h : a = b then isTrue (by rw [h]) else isFalse (by simp [h])
  | .cst a, .cst b => if h : a = b then isTrue (by rw [h]) else isFalse (by simp [h])
  | .term a x, .term b y =>
    match Expr.decEq x y with
    | isTrue h => if h' : a = b then isTrue (by rw [h, h']) else isFalse (by simp [h'])
    | isFalse h => isFalse (by simp [h])
  | .bin t x r, .bin t' y r' =>
    match Expr.decEq x y with
    | isTrue h => if h' : t = t' ∧ r = r' then isTrue (by rw [h, h'.1, h'.2])
        else isFalse (by simp [h]; exact fun a => fun b => h' ⟨a, b⟩)
    | isFalse h => isFalse (by simp [h])
  | .red t x, .red t' y =>
    match Expr.decEqList x y with
    | isTrue h => if h' : t = t' then isTrue (by rw [h, h']) else isFalse (by simp [h'])
    | isFalse h => isFalse (by simp [h])
  | .name _, .cst _ | .name _, .term _ _ | .name _, .bin _ _ _ | .name _, .red _ _
  | .cst _, .name _ | .cst _, .term _ _ | .cst _, .bin _ _ _ | .cst _, .red _ _
  | .term _ _, .name _ | .term _ _, .cst _ | .term _ _, .bin _ _ _ | .term _ _, .red _ _
  | .bin _ _ _, .name _ | .bin _ _ _, .cst _ | .bin _ _ _, .term _ _ | .bin _ _ _, .red _ _
  | .red _ _, .name _ | .red _ _, .cst _ | .red _ _, .term _ _ | .red _ _, .bin _ _ _ =>
    isFalse (by simp)
/-- `Expr.decEq` for lists. -/
def Expr.decEqList : (a b : List Expr) → Decidable (a = b)
  | [], [] => isTrue rfl
  | [], _ :: _ => isFalse (by simp)
  | _ :: _, [] => isFalse (by simp)
  | x :: xs, y :: ys =>
    match Expr.decEq x y, Expr.decEqList xs ys with
    | isTrue h, isTrue h' => isTrue (by rw [h, h'])
    | isFalse h, _ => isFalse (by simp [h])
    | _, isFalse h => isFalse (by simp [h])
end

instance : DecidableEq Expr := Expr.decEq

/-- Numeric value of `enum clast_red_type` (include/cloog/clast.h). -/
def RedType.rank : RedType → Int
  | .sum => 0 | .min => 1 | .max => 2

/-- Numeric value of `enum clast_bin_type` (include/cloog/clast.h). -/
def BinType.rank : BinType → Int
  | .fdiv => 0 | .cdiv => 1 | .div => 2 | .mod => 3

/-- Numeric value of `enum clast_expr_type` (include/cloog/clast.h). -/
def Expr.rank : Expr → Int
  | .name _ => 0 | .cst _ => 1 | .term _ _ => 1 | .bin _ _ _ => 2 | .red _ _ => 3

/-! ## Meaning of an expression in the generated program -/

/-- Values of the variables (iterators and parameters) of the generated program. -/
abbrev Env := String → Int

/-- Value of a binary node in the printed C program (source/pprint.c:144-194): `fdiv` is printed as
a call of the `floord` macro, `cdiv` as `ceild`, `div` with C's `/` and `mod` with C's `%`. -/
def BinType.eval : BinType → Int → Int → Int
  | .fdiv, n, d => floord n d
  | .cdiv, n, d => ceild n d
  | .div, n, d => n.tdiv d
  | .mod, n, d => n.tmod d

/-- Value of a reduction given the values of its operands: `+` between the operands of a sum,
nested applications of the `min`/`max` macro (source/pprint.c:210-222). The value of an empty
min/max is meaningless (it is never built); 0 is a placeholder. -/
def RedType.eval : RedType → List Int → Int
  | .sum, l => l.foldr (· + ·) 0
  | .min, [] => 0
  | .min, [x] => x
  | .min, x :: xs => cmin x (RedType.eval .min xs)
  | .max, [] => 0
  | .max, [x] => x
  | .max, x :: xs => cmax x (RedType.eval .max xs)

mutual
/-- Value of an expression in the printed C program (source/pprint.c:103-266), over exact
integers. -/
def Expr.eval (env : Env) : Expr → Int
  | .name s => env s
  | .cst c => c
  | .term c v => c * v.eval env
  | .bin t lhs rhs => t.eval (lhs.eval env) rhs
  | .red t elts => t.eval (evalList env elts)

/-- Values of the operands of a reduction. -/
def evalList (env : Env) : List Expr → List Int
  | [] => []
  | e :: es => e.eval env :: evalList env es
end

mutual
/-- No division by zero and no empty min/max can occur when the expression is evaluated. -/
def Expr.wf : Expr → Bool
  | .name _ => true
  | .cst _ => true
  | .term _ v => v.wf
  | .bin _ lhs rhs => decide (0 < rhs) && lhs.wf
  | .red t elts => (decide (t = .sum) || !elts.isEmpty) && wfList elts

/-- `Expr.wf` for a list. -/
def wfList : List Expr → Bool
  | [] => true
  | e :: es => e.wf && wfList es
end

/-! ## Comparison (source/clast.c:383-460) -/

/-- C's `strcmp`, only its sign matters. Bytes of UTF-8 strings compare like their code points. -/
def strcmp (a b : String) : Int :=
  if a = b then 0 else if a < b then -1 else 1

mutual
/-- source/clast.c:429-455 `clast_expr_cmp` together with `clast_name_cmp` (383-386),
`clast_term_cmp` (388-399), `clast_binary_cmp` (401-410) and `clast_reduction_cmp` (412-427), for
non-NULL arguments. `icmp` is `cloog_int_cmp`. -/
def exprCmp (icmp : Int → Int → Int) : Expr → Expr → Int
  | .name a, .name b => strcmp a b
  | .cst c, .cst c' => icmp c c'
  | .cst _, .term _ _ => -1
  | .term _ _, .cst _ => 1
  | .term c v, .term c' v' =>
    let r := exprCmp icmp v v'
    if r ≠ 0 then r else icmp c c'
  | .bin t l r, .bin t' l' r' =>
    if t ≠ t' then t.rank - t'.rank
    else
      let c := icmp r r'
      if c ≠ 0 then c else exprCmp icmp l l'
  | .red t l, .red t' l' =>
    if l.length = 1 ∧ l'.length = 1 then cmpList icmp l l'
    else if t ≠ t' then t.rank - t'.rank
    else if l.length ≠ l'.length then (l.length : Int) - l'.length
    else cmpList icmp l l'
  | e, e' => e.rank - e'.rank

/-- source/clast.c:423-426, the element-wise loop of `clast_reduction_cmp`; on two one-element lists
it is also source/clast.c:418. -/
def cmpList (icmp : Int → Int → Int) : List Expr → List Expr → Int
  | e :: es, e' :: es' =>
    let c := exprCmp icmp e e'
    if c ≠ 0 then c else cmpList icmp es es'
  | _, _ => 0
end

/-- source/clast.c:429-436: the NULL tests of `clast_expr_cmp`. -/
def cmpOpt (icmp : Int → Int → Int) : Option Expr → Option Expr → Int
  | none, none => 0
  | none, some _ => -1
  | some _, none => 1
  | some e, some e' => exprCmp icmp e e'

/-- source/clast.c:457-460 `clast_expr_equal`. -/
def exprEqual (icmp : Int → Int → Int) (e e' : Option Expr) : Bool := cmpOpt icmp e e' == 0

/-- `cloog_int_cmp` in a GMP build (include/cloog/int.h.in:46-88, `mpz_cmp`): the sign of the
difference. -/
def gmpCmp (a b : Int) : Int := sgn (a - b)

/-- `cloog_int_cmp` in a 64-bit build stored in an `int` (see `IntOps.cmpFixed`), for arguments whose
difference does not overflow. -/
def llCmp (a b : Int) : Int := wrap 32 (a - b)

/-- source/clast.c:480-486: the term/term case of `clast_expr_is_bigger_constant`. -/
def isBiggerCst : Expr → Expr → Bool
  | .cst c, .cst c' => decide (c > c')
  | _, _ => false

/-- source/clast.c:476-479 of `clast_expr_is_bigger_constant`: unwrap one-element reductions of the
second argument (the first one is not a reduction). -/
def isBiggerR (e : Expr) : Expr → Bool
  | .red _ [x] => isBiggerR e x
  | .red _ _ => false
  | e' => isBiggerCst e e'

/-- source/clast.c:472-475 of `clast_expr_is_bigger_constant`: unwrap one-element reductions of the
first argument. -/
def isBiggerL : Expr → Expr → Bool
  | .red _ [x], e' => isBiggerL x e'
  | .red _ _, _ => false
  | e, e' => isBiggerR e e'

/-- source/clast.c:465-487 `clast_expr_is_bigger_constant`. -/
def isBiggerConstant : Option Expr → Option Expr → Bool
  | some e, some e' => isBiggerL e e'
  | _, _ => false

mutual
/-- source/clast.c:528-556 `clast_expr_copy`. -/
def copy : Expr → Expr
  | .name s => .name s
  | .cst c => .cst c
  | .term c v => .term c (copy v)
  | .bin t l r => .bin t (copy l) r
  | .red t l => .red t (copyList l)

/-- The element loop of `clast_expr_copy` (source/clast.c:545-546). -/
def copyList : List Expr → List Expr
  | [] => []
  | e :: es => copy e :: copyList es
end

end Verif.Clast
