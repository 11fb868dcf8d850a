import Mathlib.Algebra.Order.Group.Int
import Mathlib.Data.Int.GCD
import Mathlib.Tactic.Linarith

/-!
# Integer operations of CLooG

`cloog_int_t` is modelled by unbounded `Int`.  C's `/` and `%` on signed integers truncate
towards zero, i.e. `Int.tdiv` and `Int.tmod`.
The fixed-width section at the end models machine integers explicitly.
-/

namespace Verif.IntOps

/-! ## Macros printed at the head of a generated program (source/program.c) -/

/-- source/program.c:292 `#define floord(n,d) (((n)<0) ? -((-(n)+(d)-1)/(d)) : (n)/(d))`. -/
def floord (n d : Int) : Int :=
  if n < 0 then -((-n + d - 1).tdiv d) else n.tdiv d

/-- source/program.c:294 `#define ceild(n,d) (((n)<0) ? -((-(n))/(d)) : ((n)+(d)-1)/(d))`. -/
def ceild (n d : Int) : Int :=
  if n < 0 then -((-n).tdiv d) else (n + d - 1).tdiv d

/-- source/program.c:295 `#define max(x,y) ((x) > (y) ? (x) : (y))`. -/
def cmax (x y : Int) : Int := if x > y then x else y

/-- source/program.c:296 `#define min(x,y) ((x) < (y) ? (x) : (y))`. -/
def cmin (x y : Int) : Int := if x < y then x else y

/-! ## include/cloog/int.h.in, machine-integer flavour -/

/-- include/cloog/int.h.in:97 `cloog_int_abs`. -/
def cabs (i : Int) : Int := if i > 0 then i else -i

/-- include/cloog/int.h.in:113-117 `cloog_int_fdiv_q`; `none` is the failing `assert((j) > 0)`. -/
def fdivQ (i j : Int) : Option Int :=
  if 0 < j then some (if i ≥ 0 then i.tdiv j else -((-i + j - 1).tdiv j)) else none

/-- include/cloog/int.h.in:118-122 `cloog_int_fdiv_r`; `none` is the failing assertion. -/
def fdivR (i j : Int) : Option Int :=
  if 0 < j then some (if i ≥ 0 then i.tmod j else j - 1 - ((-i + j - 1).tmod j)) else none

/-- include/cloog/int.h.in:123-128 `cloog_int_cdiv_q`; `none` is the failing assertion. -/
def cdivQ (i j : Int) : Option Int :=
  if 0 < j then some (if i ≥ 0 then (i + j - 1).tdiv j else -((-i).tdiv j)) else none

/-- include/cloog/int.h.in:132 `cloog_int_sgn`. -/
def sgn (i : Int) : Int := if i > 0 then 1 else if i < 0 then -1 else 0

/-- include/cloog/int.h.in:140 `cloog_int_is_divisible_by` (j non-zero; C's `% 0` is undefined
behaviour, which callers exclude). -/
def isDivisibleBy (i j : Int) : Bool := i.tmod j == 0

/-! ## source/int.c -/

/-- source/int.c:11-21 `cloog_gcd`: `while (a) { t = b % a; b = a; a = t; }`, then the absolute
value of `b`. The recursion is the loop; it terminates because `|b % a| < |a|`. -/
def cgcd (a b : Int) : Int :=
  if _h : a = 0 then (if b < 0 then -b else b) else cgcd (b.tmod a) a
termination_by a.natAbs
decreasing_by
  rw [Int.natAbs_tmod]
  exact Nat.mod_lt _ (Int.natAbs_pos.mpr _h)

/-- source/int.c:72-80 `cloog_seq_first_non_zero` (`none` is the result -1). `i` is the running
index of the loop. -/
def seqFirstNonZero : List Int → Option Nat
  | [] => none
  | x :: xs => if sgn x ≠ 0 then some 0 else (seqFirstNonZero xs).map (· + 1)

/-- source/int.c:82-87 `cloog_seq_neg`. -/
def seqNeg (src : List Int) : List Int := src.map (fun x => -x)

/-- source/int.c:96-101 `cloog_seq_scale_down` (`cloog_int_divexact` is C's `/`,
include/cloog/int.h.in:111). -/
def seqScaleDown (src : List Int) (m : Int) : List Int := src.map (fun x => x.tdiv m)

/-- source/int.c:103-116 `cloog_seq_combine`. -/
def seqCombine (m1 : Int) (src1 : List Int) (m2 : Int) (src2 : List Int) : List Int :=
  List.zipWith (fun a b => m1 * a + m2 * b) src1 src2

/-- source/int.c:123-128, the loop of `cloog_seq_abs_min_non_zero`: scan `rest`, whose first element
has index `i`, with `min` the index and `m` the value (`p[min]`) of the current minimum. -/
def seqAbsMinGo : List Int → (i : Nat) → (min : Nat) → (m : Int) → Nat × Int
  | [], _, min, m => (min, m)
  | x :: xs, i, min, m =>
    if sgn x = 0 then seqAbsMinGo xs (i + 1) min m
    else if cabs x - cabs m < 0 then seqAbsMinGo xs (i + 1) i x
    else seqAbsMinGo xs (i + 1) min m

/-- source/int.c:118-130 `cloog_seq_abs_min_non_zero`; returns the index together with the value at
that index, `none` is the result -1. -/
def seqAbsMinNonZero (p : List Int) : Option (Nat × Int) :=
  match seqFirstNonZero p with
  | none => none
  | some k => some (seqAbsMinGo (p.drop (k + 1)) (k + 1) k (p.getD k 0))

/-- source/int.c:141-147, the loop of `cloog_seq_gcd`: `i` is the running index and `min` the index
of the entry `gcd` was initialised with. The loop stops as soon as `gcd <= 1`. -/
def seqGcdGo (min : Nat) : List Int → (i : Nat) → (g : Int) → Int
  | [], _, g => g
  | x :: xs, i, g =>
    if g - 1 > 0 then
      if i = min then seqGcdGo min xs (i + 1) g
      else if sgn x = 0 then seqGcdGo min xs (i + 1) g
      else seqGcdGo min xs (i + 1) (cgcd g x)
    else g

/-- source/int.c:132-148 `cloog_seq_gcd`. -/
def seqGcd (p : List Int) : Int :=
  match seqAbsMinNonZero p with
  | none => 0
  | some (min, m) => seqGcdGo min p 0 (cabs m)

/-- source/int.c:150-163 `cloog_seq_is_neg` on two rows of the same length. -/
def seqIsNeg : List Int → List Int → Bool
  | [], _ => true
  | _ :: _, [] => true
  | x :: xs, y :: ys =>
    if cabs x - cabs y ≠ 0 then false
    else if sgn x = 0 then seqIsNeg xs ys
    else if x = y then false
    else seqIsNeg xs ys

/-- source/int.c:165-177 `cloog_seq_normalize`. -/
def seqNormalize (p : List Int) : List Int :=
  match p with
  | [] => []
  | _ =>
    let g := seqGcd p
    if ¬ (sgn g = 0) ∧ ¬ (g - 1 = 0) then seqScaleDown p g else p

/-! ## source/isl/domain.c: extended Euclid -/

/-- source/isl/domain.c:1749-1758, the loop of `Euclid`:
`while (d > 0) { e -= (c/d)*f; c -= (c/d)*d; swap(c,d); swap(e,f); }`; returns the final `(c, e)`.
Source/matrix/constraintset.c:851- contains the same routine. -/
def euclidLoop (c d e f : Int) : Int × Int :=
  if _h : 0 < d ∧ 0 ≤ c then euclidLoop d (c - c.tdiv d * d) f (e - c.tdiv d * f)
  else (c, e)
termination_by d.natAbs
decreasing_by
  have h1 : c - c.tdiv d * d = c % d := by
    rw [Int.tdiv_eq_ediv_of_nonneg _h.2]
    have := Int.mul_ediv_add_emod c d
    rw [Int.mul_comm d] at this
    omega
  rw [h1]
  have h2 := Int.emod_nonneg c (Int.ne_of_gt _h.1)
  have h3 := Int.emod_lt_of_pos c _h.1
  omega

/-- source/isl/domain.c:1735-1777 `Euclid`; returns `(x, y, g)`. The loop test is `d > 0`; the extra
conjunct `0 ≤ c` in `euclidLoop` always holds here since `c` starts as an absolute value (it is only
there to make the recursion's termination evident). -/
def euclid (a b : Int) : Int × Int × Int :=
  let r := euclidLoop (cabs a) (cabs b) 1 0
  let c := r.1
  let e := r.2
  let x := if sgn a = 0 then 0 else if sgn a > 0 then e else -e
  let y := if sgn b = 0 then 0 else (c - a * x).tdiv b
  (x, y, c)

/-- source/isl/domain.c:1790-1859 `construct_stride`, on the data it reads from the isl constraint:
`k` is the coefficient of the iterator at the level, `divs` the coefficients of the existentially
quantified variables. Returns `(stride, factor)`, `none` for the NULL result. `isl_val_gcd` is the
non-negative gcd, `isl_val_div` of a number by one of its divisors is exact.
Simplification: if `k = 0` and all `divs` are 0 isl would divide 0 by 0 (NaN); `find_stride`
(source/isl/domain.c:1898) only calls the function with `k ≠ 0`. -/
def constructStride (k : Int) (divs : List Int) : Option (Int × Int) :=
  let m := cabs k
  let g := divs.foldl (fun (g v : Int) => (Int.gcd g v : Int)) (0 : Int)
  let v : Int := Int.gcd m g
  let stride := g.tdiv v
  if stride = 0 ∨ stride = 1 then none
  else
    let f := (euclid m stride).1
    some (stride, if sgn k > 0 then -f else f)

/-! ## source/clast.c: stride adjustment of a constant lower bound -/

/-- source/clast.c:894-897, the arithmetic of `update_lower_bound` on a constant bound `val`.
`none` is the failing assertion of `cloog_int_cdiv_q` (machine integers). -/
def updateLowerBound (val stride offset : Int) : Option Int :=
  (cdivQ (val - offset) stride).map (fun q => q * stride + offset)

/-! ## Fixed-width integers -/

/-- Values representable in a `w`-bit two's complement integer. -/
def InRange (w : Nat) (x : Int) : Prop := -(2 ^ (w - 1) : Int) ≤ x ∧ x < 2 ^ (w - 1)

instance (w : Nat) (x : Int) : Decidable (InRange w x) := by unfold InRange; infer_instance

/-- Result of a signed `w`-bit C arithmetic operation whose exact value is `x`; `none` is signed
overflow, i.e. undefined behaviour. -/
def chk (w : Nat) (x : Int) : Option Int := if InRange w x then some x else none

/-- Conversion of a value to `w`-bit `int` when it does not fit: implementation defined, modulo
`2^w` on every supported compiler. -/
def wrap (w : Nat) (x : Int) : Int := (x + 2 ^ (w - 1)) % 2 ^ w - 2 ^ (w - 1)

/-- include/cloog/int.h.in:133 `cloog_int_cmp(i,j)` is `(i - j)` computed in `w`-bit `cloog_int_t`;
its value is then stored in a 32-bit `int` (e.g. source/clast.c:394-398 `clast_term_cmp` returns it
as `int`). `none` is signed overflow. -/
def cmpFixed (w : Nat) (i j : Int) : Option Int := (chk w (i - j)).map (wrap 32)

/-- source/program.c:292 evaluated in `w`-bit C arithmetic, each intermediate result checked. -/
def floordC (w : Nat) (n d : Int) : Option Int :=
  if n < 0 then do
    let a ← chk w (-n)
    let b ← chk w (a + d)
    let c ← chk w (b - 1)
    if d = 0 then none else
    let q ← chk w (c.tdiv d)
    chk w (-q)
  else if d = 0 then none else chk w (n.tdiv d)

/-- source/program.c:294 evaluated in `w`-bit C arithmetic, each intermediate result checked. -/
def ceildC (w : Nat) (n d : Int) : Option Int :=
  if n < 0 then do
    let a ← chk w (-n)
    if d = 0 then none else
    let q ← chk w (a.tdiv d)
    chk w (-q)
  else do
    let a ← chk w (n + d)
    let b ← chk w (a - 1)
    if d = 0 then none else chk w (b.tdiv d)

/-- include/cloog/int.h.in:113-117 `cloog_int_fdiv_q` in `w`-bit C arithmetic; `none` is a failing
assertion or signed overflow. -/
def fdivQC (w : Nat) (i j : Int) : Option Int :=
  if 0 < j then
    if i ≥ 0 then chk w (i.tdiv j)
    else do
      let a ← chk w (-i)
      let b ← chk w (a + j)
      let c ← chk w (b - 1)
      let q ← chk w (c.tdiv j)
      chk w (-q)
  else none

/-- include/cloog/int.h.in:118-122 `cloog_int_fdiv_r` in `w`-bit C arithmetic. -/
def fdivRC (w : Nat) (i j : Int) : Option Int :=
  if 0 < j then
    if i ≥ 0 then chk w (i.tmod j)
    else do
      let a ← chk w (-i)
      let b ← chk w (a + j)
      let c ← chk w (b - 1)
      let r ← chk w (c.tmod j)
      let s ← chk w (j - 1)
      chk w (s - r)
  else none

/-- include/cloog/int.h.in:123-128 `cloog_int_cdiv_q` in `w`-bit C arithmetic. -/
def cdivQC (w : Nat) (i j : Int) : Option Int :=
  if 0 < j then
    if i ≥ 0 then do
      let a ← chk w (i + j)
      let b ← chk w (a - 1)
      chk w (b.tdiv j)
    else do
      let a ← chk w (-i)
      let q ← chk w (a.tdiv j)
      chk w (-q)
  else none

end Verif.IntOps
