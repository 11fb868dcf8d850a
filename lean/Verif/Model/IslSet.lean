import Verif.Model.IntOps
import Verif.Model.LoopSem

/-!
# Strides and unrolling on explicit constraints

`source/isl/domain.c` is written on top of isl: it walks over the constraints of a set and builds
affine expressions from them.  Here a set is what isl shows to it: a list of basic sets, each a list of
equalities and inequalities over parameters, iterators and integer divisions.  The isl functions used
(`isl_constraint_get_bound`, `isl_aff_floor`, ...) are modelled by what the isl manual says they
return; they are not part of /repo.  The functions that search for an optimum or for redundant
constraints are parameters.
-/

namespace Verif.IslSet

open Verif.Loop Verif.IntOps

/-- `Σ cs[i] * v (k + i)`. -/
def dotFrom : Nat → List Int → (Nat → Int) → Int
  | _, [], _ => 0
  | k, c :: cs, v => c * v k + dotFrom (k + 1) cs v

/-- Add `v` to the coefficient at a position; missing coefficients are 0. -/
def addAt : List Int → Nat → Int → List Int
  | [], 0, v => [v]
  | [], i + 1, v => 0 :: addAt [] i v
  | c :: cs, 0, v => (c + v) :: cs
  | c :: cs, i + 1, v => c :: addAt cs i v

mutual
/-- An existentially quantified variable of a basic set: unknown, or the integer division
`floor(f / den)` (`isl_dim_div`). -/
inductive Div where
  | ex (k : Nat)
  | quot (den : Int) (set par : List Int) (cst : Int) (ds : Divs)
/-- A linear combination of such variables. -/
inductive Divs where
  | nil
  | cons (c : Int) (d : Div) (ds : Divs)
end

mutual
/-- The value of an existentially quantified variable; `e` gives the unknown ones. -/
def Div.val (p x e : Nat → Int) : Div → Int
  | .ex k => e k
  | .quot den set par cst ds =>
    (dotFrom 0 set x + dotFrom 0 par p + cst + Divs.val p x e ds).fdiv den
/-- The value of a combination. -/
def Divs.val (p x e : Nat → Int) : Divs → Int
  | .nil => 0
  | .cons c d ds => c * Div.val p x e d + Divs.val p x e ds
end

/-- All coefficients are zero (`isl_constraint_involves_dims` over all divs says no). -/
def Divs.free : Divs → Bool
  | .nil => true
  | .cons c _ ds => decide (c = 0) && ds.free

/-- Multiply the coefficients. -/
def Divs.scale (v : Int) : Divs → Divs
  | .nil => .nil
  | .cons c d ds => .cons (v * c) d (ds.scale v)

/-- Put two combinations together. -/
def Divs.append : Divs → Divs → Divs
  | .nil, e => e
  | .cons c d ds, e => .cons c d (ds.append e)

/-- The coefficients. -/
def Divs.coefs : Divs → List Int
  | .nil => []
  | .cons c _ ds => c :: ds.coefs

/-- A linear expression over iterators, parameters and integer divisions. -/
structure Lin where
  set : List Int
  par : List Int
  cst : Int
  ds : Divs

/-- The value of a linear expression. -/
def Lin.val (p x e : Nat → Int) (l : Lin) : Int :=
  dotFrom 0 l.set x + dotFrom 0 l.par p + l.cst + l.ds.val p x e

/-- An `isl_constraint`: `lin = 0` or `lin >= 0`. -/
structure Con where
  eq : Bool
  lin : Lin

/-- The constraint holds. -/
def Con.holds (c : Con) (p x e : Nat → Int) : Prop :=
  if c.eq then c.lin.val p x e = 0 else 0 ≤ c.lin.val p x e

/-- An `isl_aff`: a linear expression over a common denominator. -/
structure Aff where
  den : Int
  lin : Lin

/-- An `isl_basic_set`: its constraints. -/
abbrev BSet := List Con

/-- An `isl_set`: the number of iterators and the basic sets. -/
structure ISet where
  dim : Nat
  parts : List BSet

/-- A point with the given values of the parameters is in a basic set. -/
def BSet.mem (b : BSet) (p x : Nat → Int) : Prop := ∃ e, ∀ c ∈ b, Con.holds c p x e

/-- A point is in a set. -/
def ISet.mem (d : ISet) (px : (Nat → Int) × Pt) : Prop := ∃ b ∈ d.parts, BSet.mem b px.1 px.2

/-! ## isl functions -/

/-- `isl_constraint_get_coefficient_val(c, isl_dim_set, i)` -/
def Con.coef (c : Con) (i : Nat) : Int := c.lin.set.getD i 0

/-- `isl_constraint_get_coefficient_val(c, isl_dim_param, i)` -/
def Con.parCoef (c : Con) (i : Nat) : Int := c.lin.par.getD i 0

/-- All coefficients of a linear expression times a number. -/
def Lin.scale (v : Int) (l : Lin) : Lin :=
  ⟨l.set.map (v * ·), l.par.map (v * ·), v * l.cst, l.ds.scale v⟩

/-- `isl_constraint_get_bound(c, isl_dim_set, i)`: the expression the iterator is bounded by, i.e. the
other terms over minus the coefficient. -/
def Con.bound (c : Con) (i : Nat) : Aff :=
  if 0 < c.coef i then ⟨c.coef i, { c.lin.scale (-1) with set := (c.lin.set.set i 0).map (-1 * ·) }⟩
  else ⟨-c.coef i, { c.lin with set := c.lin.set.set i 0 }⟩

/-- `isl_constraint_get_aff` -/
def Con.aff (c : Con) : Aff := ⟨1, c.lin⟩

/-- `isl_aff_neg` -/
def Aff.neg (a : Aff) : Aff := ⟨a.den, a.lin.scale (-1)⟩

/-- `isl_aff_add_constant_val` -/
def Aff.addConst (a : Aff) (v : Int) : Aff := ⟨a.den, { a.lin with cst := a.lin.cst + v * a.den }⟩

/-- `isl_aff_add_coefficient_si(aff, isl_dim_in, i, v)` -/
def Aff.addCoef (a : Aff) (i : Nat) (v : Int) : Aff :=
  ⟨a.den, { a.lin with set := addAt a.lin.set i (v * a.den) }⟩

/-- `isl_aff_set_coefficient_si(aff, isl_dim_in, i, 0)` -/
def Aff.zeroCoef (a : Aff) (i : Nat) : Aff := ⟨a.den, { a.lin with set := a.lin.set.set i 0 }⟩

/-- `isl_aff_drop_dims(aff, isl_dim_div, 0, n)` for all divs -/
def Aff.dropDivs (a : Aff) : Aff := ⟨a.den, { a.lin with ds := .nil }⟩

/-- `isl_aff_scale_val` -/
def Aff.scale (a : Aff) (v : Int) : Aff := ⟨a.den, a.lin.scale v⟩

/-- `isl_aff_scale_down_val`, for `v > 0` -/
def Aff.scaleDown (a : Aff) (v : Int) : Aff := ⟨a.den * v, a.lin⟩

/-- Add coefficient lists. -/
def addLists : List Int → List Int → List Int
  | [], b => b
  | a, [] => a
  | a :: as, b :: bs => (a + b) :: addLists as bs

/-- Sum of linear expressions. -/
def Lin.add (a b : Lin) : Lin :=
  ⟨addLists a.set b.set, addLists a.par b.par, a.cst + b.cst, a.ds.append b.ds⟩

/-- `isl_aff_add` -/
def Aff.add (a b : Aff) : Aff := ⟨a.den * b.den, (a.lin.scale b.den).add (b.lin.scale a.den)⟩

/-- `isl_aff_sub` -/
def Aff.sub (a b : Aff) : Aff := a.add b.neg

/-- `isl_aff_floor` -/
def Aff.floor (a : Aff) : Aff :=
  ⟨1, ⟨[], [], 0, .cons 1 (.quot a.den a.lin.set a.lin.par a.lin.cst a.lin.ds) .nil⟩⟩

/-- `isl_aff_ceil`: minus the floor of minus the expression -/
def Aff.ceil (a : Aff) : Aff := a.neg.floor.neg

/-- `isl_inequality_from_aff` -/
def Aff.ineq (a : Aff) : Con := ⟨false, a.lin⟩

/-- `isl_equality_from_aff` -/
def Aff.equ (a : Aff) : Con := ⟨true, a.lin⟩

/-- `isl_set_add_constraint`, for a constraint without unknown existentially quantified variables -/
def ISet.addCon (d : ISet) (c : Con) : ISet := ⟨d.dim, d.parts.map (fun b => b ++ [c])⟩

/-! ## Strides -/

/-- `struct cloogstride` (`include/cloog/stride.h:11-17`) without the reference count. -/
structure Stride where
  stride : Int
  offset : Int
  factor : Int
  con : Option Con

/-- `constraint_can_stride` (`source/isl/domain.c:859-888`): the value of `can_stride` after the
constraint. -/
def constraintCanStride (level : Nat) (can : Bool) (c : Con) : Bool :=
  if c.eq then can
  else if 0 < c.coef (level - 1) then (if c.lin.ds.free then can else false)
  else can

/-- `cloog_domain_can_stride` with `basic_set_can_stride` (`source/isl/domain.c:890-920`). -/
def canStride (d : ISet) (level : Nat) : Bool :=
  d.parts.foldl (fun can b => b.foldl (constraintCanStride level) can) true

/-- The bound added by `constraint_stride_lower` (`source/isl/domain.c:968-1006`) and
`constraint_stride_lower_c` (`source/isl/domain.c:1025-1071`) for a lower bound; the second one is used
for strides that come from a constraint. -/
def strideBound (level : Nat) (s : Stride) (c : Con) : Con :=
  match s.con with
  | none =>
    ((((((c.bound (level - 1)).neg.addConst s.offset).scaleDown s.stride).floor.scale s.stride).addConst
      (-s.offset)).addCoef (level - 1) 1).ineq
  | some sc =>
    let d := ((sc.aff.dropDivs).zeroCoef (level - 1)).scale s.factor
    ((((((c.bound (level - 1)).neg.add d).scaleDown s.stride).floor.scale s.stride).sub d).addCoef
      (level - 1) 1).ineq

/-- `constraint_stride_lower` / `constraint_stride_lower_c`: what is added to `bounds` for a
constraint (`source/isl/domain.c:968-1071`). -/
def strideLowerCon (level : Nat) (s : Stride) (c : Con) : List Con :=
  if c.eq then [] else if 0 < c.coef (level - 1) then [strideBound level s c] else []

/-- `basic_set_stride_lower` (`source/isl/domain.c:1073-1089`): the basic set with the new bounds. -/
def basicStrideLower (level : Nat) (s : Stride) (b : BSet) : BSet :=
  b ++ b.flatMap (strideLowerCon level s)

/-- `cloog_domain_stride_lower_bound` (`source/isl/domain.c:1096-1112`). -/
def strideLowerBound (d : ISet) (level : Nat) (s : Stride) : ISet :=
  ⟨d.dim, d.parts.map (basicStrideLower level s)⟩

/-- `find_stride` (`source/isl/domain.c:1873-1906`) with `construct_stride`
(`source/isl/domain.c:1790-1859`, `IntOps.constructStride`): the stride found so far and after the
constraint. -/
def findStride (level : Nat) (found : Option Stride) (c : Con) : Option Stride :=
  if c.eq = false then found
  else
    match found with
    | some s => some s
    | none =>
      if c.lin.ds.coefs.length = 0 then none
      else if c.coef (level - 1) = 0 then none
      else
        match constructStride (c.coef (level - 1)) c.lin.ds.coefs with
        | none => none
        | some (s, f) => some ⟨s, 0, f, some c⟩

/-- `cloog_domain_list_stride` (`source/isl/domain.c:1915-1943`) after the affine hull `hull` of the
union of the projections has been computed (by isl). -/
def listStride (level : Nat) (hull : BSet) : Option Stride := hull.foldl (findStride level) none

/-- `extract_stride_offset` (`source/isl/constraints.c:1083-1113`). -/
def strideOffset (level : Nat) (s : Stride) (sc : Con) : Aff :=
  ⟨1, ⟨(sc.lin.set.map (fun u => u * s.factor)).set (level - 1) 0,
    sc.lin.par.map (fun u => u * s.factor), sc.lin.cst * s.factor, .nil⟩⟩

/-- `cloog_constraint_stride_lower_bound` (`source/isl/constraints.c:1129-1153`); only called for
strides that come from a constraint (`source/clast.c:865-874`). -/
def conStrideLowerBound (c : Con) (level : Nat) (s : Stride) (sc : Con) : Con :=
  let offset := strideOffset level s sc
  ((((((c.bound (level - 1)).sub offset).scaleDown s.stride).ceil.scale s.stride).add offset).neg.addCoef
    (level - 1) 1).ineq

/-! ## Unrolling -/

/-- The result of `isl_set_max_val`. -/
inductive MaxVal where
  | nan
  | infty
  | neginfty
  | val (v : Int)

/-- `is_valid_unrolling_lower_bound` (`source/isl/domain.c:1962-1991`): the outer `none` is
`cloog_die`, the inner one is a bound that cannot be used.  `maxVal` is `isl_set_max_val` on the set
that is to be unrolled. -/
def validUnrolling (maxVal : Aff → MaxVal) (level : Nat) (c : Con) : Option (Option Int) :=
  if c.lin.ds.free = false then some none
  else
    match maxVal (((c.bound (level - 1)).ceil.neg).addCoef (level - 1) 1) with
    | .nan => none
    | .infty => some none
    | .neginfty => some none
    | .val v => some (some (v + 1))

/-- Is the new count used instead of the recorded one (`source/isl/domain.c:2007-2009`)? -/
def better (best : Option (Int × Con)) (n : Int) : Bool :=
  match best with
  | none => true
  | some (m, _) => decide (n < m)

/-- `constraint_can_unroll` (`source/isl/domain.c:2000-2020`): the recorded count and bound after the
constraint. -/
def constraintCanUnroll (maxVal : Aff → MaxVal) (level : Nat) (best : Option (Int × Con)) (c : Con) :
    Option (Option (Int × Con)) :=
  if 0 < c.coef (level - 1) then
    match validUnrolling maxVal level c with
    | none => none
    | some none => some best
    | some (some n) => some (if better best n then some (n, c) else best)
  else some best

/-- `isl_basic_set_foreach_constraint` with `constraint_can_unroll`. -/
def constraintsCanUnroll (maxVal : Aff → MaxVal) (level : Nat) : List Con → Option (Int × Con) →
    Option (Option (Int × Con))
  | [], best => some best
  | c :: cs, best =>
    match constraintCanUnroll maxVal level best c with
    | none => none
    | some best' => constraintsCanUnroll maxVal level cs best'

/-- `isl_set_foreach_basic_set` with `basic_set_can_unroll` (`source/isl/domain.c:2028-2042`): the
state is `can_unroll` and what is recorded.  `reduce` is `isl_basic_set_remove_redundancies`. -/
def partsCanUnroll (reduce : BSet → BSet) (maxVal : Aff → MaxVal) (level : Nat) :
    List BSet → Bool → Option (Int × Con) → Option (Bool × Option (Int × Con))
  | [], can, best => some (can, best)
  | b :: bs, can, best =>
    if best.isSome || !can then partsCanUnroll reduce maxVal level bs false best
    else
      match constraintsCanUnroll maxVal level (reduce b) best with
      | none => none
      | some best' => partsCanUnroll reduce maxVal level bs can best'

/-- `cloog_domain_can_unroll` (`source/isl/domain.c:2053-2080`): the outer `none` is `cloog_die`. -/
def canUnroll (reduce : BSet → BSet) (maxVal : ISet → Aff → MaxVal) (d : ISet) (level : Nat) :
    Option (Option (Int × Con)) :=
  match partsCanUnroll reduce (maxVal d) level d.parts true none with
  | none => none
  | some (true, some r) => some (some r)
  | some _ => some none

/-- `cloog_domain_fixed_offset` (`source/isl/domain.c:2090-2108`). -/
def fixedOffset (d : ISet) (level : Nat) (lb : Con) (offset : Int) : ISet :=
  d.addCon ((((lb.bound (level - 1)).ceil.addCoef (level - 1) (-1)).addConst offset).equ)

/-! ## Splitting parameters -/

/-- The constraint `param[i] >= 0`, or `param[i] < 0`. -/
def signCon (i : Nat) (neg : Bool) : Con :=
  ⟨false, ⟨[], addAt [] i (if neg then -1 else 1), if neg then -1 else 0, .nil⟩⟩

/-- `isl_set_split_dims(set, isl_dim_param, i, 1)`: every basic set is split into the part where the
parameter is not negative and the part where it is. -/
def splitDim (parts : List BSet) (i : Nat) : List BSet :=
  parts.flatMap (fun b => [b ++ [signCon i false], b ++ [signCon i true]])

/-- The splits of `constraint_bound_split` (`source/isl/domain.c:1167-1176`) for a constraint that is
handled; `n` is the number of parameters. -/
def splitPars (n : Nat) (c : Con) (parts : List BSet) : List BSet :=
  (List.range n).foldl (fun ps i => if c.parCoef i = 0 then ps else splitDim ps i) parts

/-- `isl_basic_set_foreach_constraint` with `constraint_bound_split`
(`source/isl/domain.c:1154-1182`): the state is the split set and the flags `lower`, `upper`; the walk
stops once both are set. -/
def constraintsSplit (n level : Nat) : List Con → Bool → Bool → List BSet → List BSet
  | [], _, _, parts => parts
  | c :: cs, lower, upper, parts =>
    let isL := !lower && decide (0 < c.coef (level - 1))
    let isU := !isL && !upper && decide (c.coef (level - 1) < 0)
    let parts' := if isL || isU then splitPars n c parts else parts
    if (lower || isL) && (upper || isU) then parts'
    else constraintsSplit n level cs (lower || isL) (upper || isU) parts'

/-- `cloog_domain_bound_splitter` with `basic_set_bound_split` (`source/isl/domain.c:1184-1220`); `n`
is the number of parameters. -/
def boundSplitter (n : Nat) (d : ISet) (level : Nat) : ISet :=
  ⟨d.dim, d.parts.foldl (fun ps b => constraintsSplit n level b false false ps) [[]]⟩

end Verif.IslSet
