import Verif.Model.ScalarSort
import Verif.Model.Tarjan

/-!
# The loop list operations of source/loop.c

The functions of `source/loop.c` that build and transform lists of `CloogLoop`s, up to and including
`cloog_loop_generate` and `cloog_loop_simplify`.

Domains are an abstract type `D`, strides an abstract type `S` and constraints an abstract type `C`.
The operations on them (`source/isl/domain.c`, on top of isl) are the fields of `DomOps`; what is
assumed about them is stated as separate hypotheses (`Verif.Props.Loop`).

Ownership is not modelled: lists are values, so the calls that copy or free a domain, a block, a
stride or a loop list disappear.  A linked list of loops (`next`) is a Lean list, and the `start` /
`now` pairs of `cloog_loop_add` and `cloog_loop_add_list` (`source/loop.c:452-485`) are appends.  The
fields `state`, `unsimplified`, `saved` and `usr` play no role in the functions modelled here.
Recursions whose termination rests on the domain operations carry a bound (`fuel`); `none` means that
the bound was too small.
-/

namespace Verif.Loop

/-- The part of `CloogBlock` (`include/cloog/block.h`) that `source/loop.c` reads: the numbers of the
statements and the vector of scalar dimensions. -/
structure Block where
  stmts : List Nat
  scal : List Int
deriving DecidableEq

/-- `struct cloogloop` (`include/cloog/loop.h`): domain, `otl` flag, stride, block, inner loops. -/
inductive Loop (D S : Type) where
  | mk (dom : D) (otl : Bool) (stride : Option S) (block : Option Block) (inner : List (Loop D S))

namespace Loop
variable {D S : Type}
/-- Field access. -/
def dom : Loop D S → D | mk d _ _ _ _ => d
/-- Field access. -/
def otl : Loop D S → Bool | mk _ o _ _ _ => o
/-- Field access. -/
def stride : Loop D S → Option S | mk _ _ s _ _ => s
/-- Field access. -/
def block : Loop D S → Option Block | mk _ _ _ b _ => b
/-- Field access. -/
def inner : Loop D S → List (Loop D S) | mk _ _ _ _ i => i
@[simp] theorem dom_mk (d : D) (o : Bool) (s : Option S) (b : Option Block) (i : List (Loop D S)) :
    (mk d o s b i).dom = d := rfl
@[simp] theorem otl_mk (d : D) (o : Bool) (s : Option S) (b : Option Block) (i : List (Loop D S)) :
    (mk d o s b i).otl = o := rfl
@[simp] theorem stride_mk (d : D) (o : Bool) (s : Option S) (b : Option Block)
    (i : List (Loop D S)) : (mk d o s b i).stride = s := rfl
@[simp] theorem block_mk (d : D) (o : Bool) (s : Option S) (b : Option Block)
    (i : List (Loop D S)) : (mk d o s b i).block = b := rfl
@[simp] theorem inner_mk (d : D) (o : Bool) (s : Option S) (b : Option Block)
    (i : List (Loop D S)) : (mk d o s b i).inner = i := rfl
/-- Field update `loop->domain = d`. -/
def setDom (l : Loop D S) (d : D) : Loop D S := mk d l.otl l.stride l.block l.inner
/-- Field update `loop->inner = i`. -/
def setInner (l : Loop D S) (i : List (Loop D S)) : Loop D S := mk l.dom l.otl l.stride l.block i
@[simp] theorem dom_setInner (l : Loop D S) (i : List (Loop D S)) : (l.setInner i).dom = l.dom := rfl
@[simp] theorem inner_setInner (l : Loop D S) (i : List (Loop D S)) : (l.setInner i).inner = i := rfl
@[simp] theorem block_setInner (l : Loop D S) (i : List (Loop D S)) :
    (l.setInner i).block = l.block := rfl
@[simp] theorem stride_setInner (l : Loop D S) (i : List (Loop D S)) :
    (l.setInner i).stride = l.stride := rfl
@[simp] theorem dom_setDom (l : Loop D S) (d : D) : (l.setDom d).dom = d := rfl
@[simp] theorem inner_setDom (l : Loop D S) (d : D) : (l.setDom d).inner = l.inner := rfl
@[simp] theorem block_setDom (l : Loop D S) (d : D) : (l.setDom d).block = l.block := rfl
@[simp] theorem stride_setDom (l : Loop D S) (d : D) : (l.setDom d).stride = l.stride := rfl
end Loop

/-- The operations of `source/isl/domain.c` used by `source/loop.c`. -/
structure DomOps (D S C : Type) where
  /-- `cloog_domain_dimension` -/
  dim : D → Nat
  /-- `cloog_domain_isconvex` -/
  isConvex : D → Bool
  /-- `cloog_domain_isempty` -/
  isEmpty : D → Bool
  /-- `cloog_domain_never_integral` -/
  neverIntegral : D → Bool
  /-- `cloog_domain_simplify_union` -/
  simplifyUnion : D → D
  /-- `cloog_domain_cut_first`: the first component and the rest -/
  cutFirst : D → D × D
  /-- `cloog_domain_intersection` -/
  inter : D → D → D
  /-- `cloog_domain_union` -/
  union : D → D → D
  /-- `cloog_domain_difference` -/
  diff : D → D → D
  /-- `cloog_domain_empty` -/
  empty : D → D
  /-- `cloog_domain_lazy_equal` -/
  lazyEqual : D → D → Bool
  /-- `cloog_domain_lazy_disjoint` -/
  lazyDisjoint : D → D → Bool
  /-- `cloog_domain_convex` -/
  convex : D → D
  /-- `cloog_domain_simple_convex` -/
  simpleConvex : D → D
  /-- `cloog_domain_is_bounded` -/
  isBounded : D → Nat → Bool
  /-- `cloog_domain_bound_splitter` -/
  boundSplitter : D → Nat → D
  /-- `cloog_domain_extend` -/
  extend : D → Nat → D
  /-- `cloog_domain_project` -/
  project : D → Nat → D
  /-- `cloog_domain_simplify` -/
  gist : D → D → D
  /-- `cloog_domain_sort`: the permutation, with positions counted from 0; `none` when it does not
  return -/
  sort : List D → Nat → Option (List Nat)
  /-- `cloog_domain_follows` -/
  follows : D → D → Nat → Int
  /-- `cloog_domain_lazy_isconstant`, with the value -/
  lazyIsConstant : D → Nat → Option Int
  /-- `cloog_domain_can_stride` -/
  canStride : D → Nat → Bool
  /-- `cloog_domain_list_stride` -/
  listStride : List D → Nat → Option S
  /-- `cloog_domain_stride`: the stride and the offset -/
  stride : D → Nat → Int × Int
  /-- `cloog_stride_alloc` -/
  mkStride : Int → Int → S
  /-- `cloog_domain_stride_lower_bound` -/
  strideLowerBound : D → Nat → S → D
  /-- `cloog_domain_add_stride_constraint`, for a stride that is present -/
  addStride : D → S → D
  /-- `cloog_domain_is_otl` -/
  isOtl : D → Nat → Bool
  /-- `cloog_domain_can_unroll`: the trip count and the lower bound -/
  canUnroll : D → Nat → Option (Int × C)
  /-- `cloog_domain_fixed_offset` -/
  fixedOffset : D → Nat → C → Int → D
  /-- `cloog_int_cmp` -/
  icmp : Int → Int → Int

/-- The options read by `source/loop.c` (`include/cloog/options.h`).  `fs` and `ls` are the arrays of
per-statement levels, indexed by `number - 1`. -/
structure Options where
  f : Int := 1
  l : Int := -1
  stop : Int := -1
  strides : Bool := false
  sh : Bool := false
  otl : Bool := true
  backtrack : Bool := false
  firstUnroll : Int := -1
  fs : Option (List Int) := none
  ls : Option (List Int) := none

variable {D S C : Type} (o : DomOps D S C)

/-! ## Splitting unions -/

/-- The `while` loop of `cloog_loop_add_disjoint` (`source/loop.c:555-586`); `rec_` is the recursive
call. -/
def splitRest (rec_ : Loop D S → Option (List (Loop D S))) (block : Option Block)
    (inner : List (Loop D S)) : Nat → D → D → Option (List (Loop D S))
  | 0, _, _ => none
  | fuel + 1, rest, seen =>
    if o.isEmpty rest then some []
    else if o.isEmpty (o.diff (o.cutFirst rest).1 seen) then
      splitRest rec_ block inner fuel (o.cutFirst rest).2 seen
    else
      match (if o.isConvex (o.diff (o.cutFirst rest).1 seen) then
          some [Loop.mk (o.diff (o.cutFirst rest).1 seen) false none block inner]
        else rec_ (Loop.mk (o.diff (o.cutFirst rest).1 seen) false none block inner)) with
      | none => none
      | some pieces =>
        if o.isEmpty (o.cutFirst rest).2 then some pieces
        else
          match splitRest rec_ block inner fuel (o.cutFirst rest).2
              (o.union seen (o.diff (o.cutFirst rest).1 seen)) with
          | none => none
          | some more => some (pieces ++ more)

/-- `cloog_loop_add_disjoint` (`source/loop.c:533-591`): the loops that are added to the list. -/
def addDisjoint : Nat → Loop D S → Option (List (Loop D S))
  | 0, _ => none
  | fuel + 1, l =>
    if o.isConvex l.dom then some [l]
    else
      match splitRest o (addDisjoint fuel) l.block l.inner fuel
          (o.cutFirst (o.simplifyUnion l.dom)).2 (o.cutFirst (o.simplifyUnion l.dom)).1 with
      | none => none
      | some more =>
        some (Loop.mk (o.cutFirst (o.simplifyUnion l.dom)).1 false none l.block l.inner :: more)

/-- Concatenate the results of a partial function over a list. -/
def flatMapM {α β : Type} (f : α → Option (List β)) : List α → Option (List β)
  | [] => some []
  | a :: as =>
    match f a with
    | none => none
    | some bs =>
      match flatMapM f as with
      | none => none
      | some cs => some (bs ++ cs)

/-- `cloog_loop_disjoint` (`source/loop.c:603-618`); the shortcut for a single convex loop gives the
same value as the general path. -/
def disjoint (fuel : Nat) (ls : List (Loop D S)) : Option (List (Loop D S)) :=
  flatMapM (addDisjoint o fuel) ls

/-! ## Restriction and projection -/

/-- `cloog_loop_restrict` (`source/loop.c:631-656`). -/
def restrict (l : Loop D S) (ctx : D) : Option (Loop D S) :=
  let nd := if o.dim ctx < o.dim l.dom then o.inter (o.extend ctx (o.dim l.dom)) l.dom
    else o.inter ctx l.dom
  if o.isEmpty nd then none else some (.mk nd false none l.block l.inner)

/-- `cloog_loop_restrict_all` (`source/loop.c:663-683`). -/
def restrictAll (ls : List (Loop D S)) (ctx : D) : List (Loop D S) :=
  ls.filterMap (fun l => restrict o l ctx)

/-- `cloog_loop_restrict_inner` (`source/loop.c:692-714`). -/
def restrictInner (ls : List (Loop D S)) : List (Loop D S) :=
  ls.filterMap (fun l =>
    if (restrictAll o l.inner l.dom).isEmpty then none
    else some (l.setInner (restrictAll o l.inner l.dom)))

/-- `cloog_loop_project` (`source/loop.c:726-743`). -/
def project (level : Nat) (l : Loop D S) : Loop D S :=
  .mk (if o.dim l.dom = level then l.dom else o.project l.dom level) false none none [l]

/-- `cloog_loop_project_all` (`source/loop.c:750-766`). -/
def projectAll (ls : List (Loop D S)) (level : Nat) : List (Loop D S) := ls.map (project o level)

/-- `cloog_loop_combine` (`source/loop.c:797-813`): the loop `first`, with the loops after it. -/
def combineFrom : Loop D S → List (Loop D S) → List (Loop D S)
  | a, [] => [a]
  | a, b :: ls =>
    if o.lazyEqual a.dom b.dom then combineFrom (a.setInner (a.inner ++ b.inner)) ls
    else a :: combineFrom b ls

/-- `cloog_loop_combine` (`source/loop.c:797-813`). -/
def combine : List (Loop D S) → List (Loop D S)
  | [] => []
  | a :: ls => combineFrom o a ls

/-- `cloog_loop_remove_empty_domain_loops` (`source/loop.c:818-836`). -/
def removeEmpty (ls : List (Loop D S)) : List (Loop D S) := ls.filter (fun l => !o.isEmpty l.dom)

/-! ## Separation and merging -/

/-- `source/loop.c:946-967`: the loop for the intersection of `q` with `l`, if it is not empty. -/
def sepInter (q l : Loop D S) : Option (Loop D S) :=
  if o.lazyDisjoint q.dom l.dom then none
  else
    let d := if o.lazyEqual q.dom l.dom then q.dom else o.inter q.dom l.dom
    if o.isEmpty d then none else some (.mk d false none none (q.inner ++ l.inner))

/-- `source/loop.c:969-992`: the loop for `q` minus `l`, if it is not empty.  The test `disjoint` is
that of `sepInter`. -/
def sepDiff (q l : Loop D S) : Option (Loop D S) :=
  let d :=
    if (sepInter o q l).isNone then q.dom
    else if o.lazyEqual q.dom l.dom then o.empty q.dom
    else o.diff q.dom l.dom
  if o.isEmpty d then none else some (.mk d false none none q.inner)

/-- `source/loop.c:995-1015`: the loop for `l` minus the union `uq` of the previous loops, if it is
not empty. -/
def sepRest (uq : D) (l : Loop D S) : Option (Loop D S) :=
  let d :=
    if o.lazyDisjoint l.dom uq then l.dom
    else if o.lazyEqual l.dom uq then o.empty uq
    else o.diff l.dom uq
  if o.isEmpty d then none else some (.mk d false none none l.inner)

/-- One iteration of the `while` loop of `cloog_loop_separate` (`source/loop.c:939-1015`): the
pieces for the next loop `l`, before `cloog_loop_add_disjoint`. -/
def sepPieces (res : List (Loop D S)) (uq : D) (l : Loop D S) : List (Loop D S) :=
  res.flatMap (fun q => (sepInter o q l).toList ++ (sepDiff o q l).toList) ++
    (sepRest o uq l).toList

/-- The `while` loop of `cloog_loop_separate` (`source/loop.c:939-1028`). -/
def sepLoop (fuel : Nat) : List (Loop D S) → List (Loop D S) → D → Option (List (Loop D S))
  | [], res, _ => some res
  | l :: ls, res, uq =>
    match flatMapM (addDisjoint o fuel) (sepPieces o res uq l) with
    | none => none
    | some res' => sepLoop fuel ls res' (o.union uq l.dom)

/-- `cloog_loop_separate` (`source/loop.c:924-1032`). -/
def separate (fuel : Nat) (ls : List (Loop D S)) : Option (List (Loop D S)) :=
  match combine o ls with
  | [] => some []
  | [l] => disjoint o fuel [l]
  | l :: ls' => sepLoop o fuel ls' [.mk l.dom false none l.block l.inner] l.dom

/-- `bounding_domain` (`source/loop.c:1035-1041`). -/
def boundingDomain (opt : Options) (d : D) : D := if opt.sh then o.simpleConvex d else o.convex d

/-- The union of the domains of a non-empty list of loops, accumulated from the left
(`source/loop.c:1071-1075` and `source/loop.c:1666-1669`). -/
def unionDom : D → List (Loop D S) → D
  | d, [] => d
  | d, l :: ls => unionDom (o.union d l.dom) ls

/-- The loop over the parts of the splitter (`source/loop.c:1088-1117`); new loops go to the front
of `res`. -/
def mergeSplit (opt : Options) (temp : D) (inner : List (Loop D S)) :
    Nat → D → List (Loop D S) → Option (List (Loop D S))
  | 0, _, _ => none
  | fuel + 1, splitter, res =>
    if o.isConvex splitter then
      let nd := boundingDomain o opt (o.inter splitter temp)
      if o.isEmpty nd then some res else some (.mk nd false none none inner :: res)
    else
      let nd := boundingDomain o opt (o.inter (o.cutFirst splitter).1 temp)
      mergeSplit opt temp inner fuel (o.cutFirst splitter).2
        (if o.isEmpty nd then res else .mk nd false none none inner :: res)

/-- `cloog_loop_merge` (`source/loop.c:1053-1124`). -/
def merge (fuel : Nat) (level : Nat) (opt : Options) : List (Loop D S) → Option (List (Loop D S))
  | [] => some []
  | l :: ls =>
    if ls.isEmpty ∧ o.isConvex l.dom then some [l]
    else
      let temp := unionDom o l.dom ls
      let inner := (l :: ls).flatMap Loop.inner
      let nd := boundingDomain o opt temp
      if 0 < level ∧ o.isBounded nd level = false ∧ o.isBounded temp level = true then
        mergeSplit o opt temp inner fuel (o.boundSplitter temp level) []
      else some [.mk nd false none none inner]

/-! ## Sorting and nesting -/

/-- `cloog_loop_sort` (`source/loop.c:1145-1193`).  With an empty list the C code asks for zero-sized
arrays and returns the empty list, as the model does when `sort` returns the empty permutation. -/
def sort (level : Nat) (ls : List (Loop D S)) : Option (List (Loop D S)) :=
  if level = 0 then some ls
  else if ls.length = 1 then some ls
  else
    match o.sort (ls.map Loop.dom) level with
    | none => none
    | some perm => some (perm.filterMap (fun i => ls[i]?))

/-- The `for (l = dim; l >= level; l--)` loop of `cloog_loop_nest` (`source/loop.c:1228-1232`); `n`
is the number of remaining steps and `level + n - 1` the next value of `l`. -/
def nestProjections (d : D) (level : Nat) : Nat → Loop D S → Loop D S
  | 0, t => t
  | n + 1, t => nestProjections d level n (.mk (o.project d (level + n)) false none none [t])

/-- The body of `cloog_loop_nest` for one loop (`source/loop.c:1215-1244`). -/
def nestOne (ctx : D) (level : Nat) (l : Loop D S) : Option (Loop D S) :=
  match restrict o l ctx with
  | none => none
  | some p => some (nestProjections o p.dom level (o.dim p.dom + 1 - level)
      (.mk p.dom false none p.block p.inner))

/-- `cloog_loop_nest` (`source/loop.c:1206-1248`). -/
def nest (fuel : Nat) (ls : List (Loop D S)) (ctx : D) (level : Nat) :
    Option (List (Loop D S)) :=
  match disjoint o fuel ls with
  | none => none
  | some ds => some (ds.filterMap (nestOne o ctx level))

/-! ## Strides, single iterations, `-stop` -/

/-- The state of the search for a common stride: `stride`, `ref_offset`, `offset`,
`first_search`. -/
structure StrideSearch where
  stride : Int
  refOffset : Int
  offset : Int
  first : Bool
deriving DecidableEq

/-- `cloog_int_gcd` (see `Verif.Model.IntOps` for the code); it returns the non-negative gcd. -/
def gcd (a b : Int) : Int := Int.gcd a b

/-- `cloog_domain_stride` (`source/isl/domain.c:831-852`), from the modulus and the residue computed by
`isl_set_dim_residue_class_val`. -/
def residueStride (m r : Int) : Int × Int := (m, if r ≠ 0 then m - r else r)

/-- The body of the search loop (`source/loop.c:1336-1360`) for an inner loop with the potential
stride and offset of `cloog_domain_stride`. -/
def strideStep (potential offset : Int) (s : StrideSearch) : StrideSearch :=
  if s.first = true ∨ s.stride ≠ 1 then
    if potential ≠ 1 ∧ s.first = false then
      let g := gcd potential s.stride
      let off := if g ≠ 0 then offset.fmod g else offset
      let ref := if g ≠ 0 then s.refOffset.fmod g else s.refOffset
      { stride := if off ≠ ref then 1 else g, refOffset := ref, offset := off, first := false }
    else { stride := potential, refOffset := offset, offset := offset, first := false }
  else s

/-- The search of `cloog_loop_stride` over the inner loops and the final adjustment
(`source/loop.c:1327-1371`): the stride and the offset that are attached, if any. -/
def strideSearch (l : List (Int × Int)) : Option (Int × Int) :=
  let s := l.foldl (fun s po => strideStep po.1 po.2 s) ⟨1, 0, 0, true⟩
  let st := if s.stride = 0 then 1 else s.stride
  if st ≠ 1 then some (st, if s.offset ≠ 0 then st - s.offset else s.offset) else none

/-- `cloog_loop_stride` (`source/loop.c:1312-1379`), with `cloog_loop_variable_offset_stride`
(`source/loop.c:1258-1282`, which collects the inner domains in reverse order). -/
def loopStride (level : Nat) : Loop D S → Loop D S
  | .mk d otl st b inner =>
    if o.canStride d level = false then .mk d otl st b inner
    else
      match o.listStride (inner.map Loop.dom).reverse level with
      | some s => .mk (o.strideLowerBound d level s) otl (some s) b inner
      | none =>
        match strideSearch (inner.map (fun l => o.stride l.dom level)) with
        | none => .mk d otl st b inner
        | some (s, off) =>
          .mk (o.strideLowerBound d level (o.mkStride s off)) otl (some (o.mkStride s off)) b inner

/-- `cloog_loop_otl` (`source/loop.c:1382-1386`). -/
def loopOtl (level : Nat) : Loop D S → Loop D S
  | .mk d otl st b inner => .mk d (otl || o.isOtl d level) st b inner

/-- `cloog_loop_stop` (`source/loop.c:1400-1410`). -/
def stop (ls : List (Loop D S)) (ctx : D) : List (Loop D S) := ls.map (fun l => l.setDom ctx)

/-- `cloog_loop_more` (`source/loop.c:1610-1614`). -/
def more (l : Loop D S) (level scalar nbScatt : Nat) : Bool :=
  decide (level + scalar ≤ nbScatt) || decide (level ≤ o.dim l.dom)

/-- `cloog_loop_is_constant` (`source/loop.c:1624-1646`), for a non-empty list. -/
def isConstant (level : Nat) : List (Loop D S) → Bool
  | [] => false
  | l :: ls =>
    match o.lazyIsConstant l.dom (level - 1) with
    | none => false
    | some c => ls.all (fun m => o.lazyIsConstant m.dom (level - 1) == some c)

/-- `cloog_loop_constant` (`source/loop.c:1655-1679`). -/
def constant : List (Loop D S) → List (Loop D S)
  | [] => []
  | l :: ls => [.mk (o.simpleConvex (unionDom o l.dom ls)) false none none
      ((l :: ls).flatMap Loop.inner)]

/-! ## Unrolling -/

/-- `loop_unroll` (`source/loop.c:1687-1728`). -/
def unrollOne (level : Nat) (l : Loop D S) : List (Loop D S) :=
  match o.canUnroll l.dom level with
  | none => [l]
  | some (n, lb) =>
    (List.range n.toNat).filterMap (fun i : Nat =>
      let d := o.fixedOffset l.dom level lb i
      if (restrictAll o l.inner d).isEmpty then none
      else some (.mk d true none none (restrictAll o l.inner d)))

/-- `cloog_loop_unroll` (`source/loop.c:1734-1751`). -/
def unroll (level : Nat) (ls : List (Loop D S)) : List (Loop D S) := ls.flatMap (unrollOne o level)

/-! ## The order of loops -/

/-- The scalar vector of the block of a loop; `cloog_loop_constant_cmp` is only called on loops with a
block (`source/loop.c:1434-1447`). -/
def scalOf (l : Loop D S) : Nat → Int := fun i =>
  match l.block with
  | none => 0
  | some b => b.scal.getD i 0

/-- The number of scalar dimensions in a row that starts at `level + scalar - 1`: the value stored in
`scaldims` at that position (`cloog_program_extract_scalars`, `source/program.c`).  In the array a
scalar dimension holds this count, other dimensions hold 0; `ScalarSort` only uses whether the entry
is non-zero. -/
def runLength (scaldims : List Nat) (i : Nat) : Nat := scaldims.getD i 0

/-- The boolean view of `scaldims`. -/
def isScal (scaldims : List Nat) : List Bool := scaldims.map (fun n => decide (n ≠ 0))

/-- The `while` loop of `cloog_loop_follows` (`source/loop.c:2235-2254`).  Every iteration advances
`level` or `scalar`, so that `fuel` is only there to make the recursion structural. -/
def followsFrom (l1 l2 : Loop D S) (scaldims : List Nat) (dflt : Bool) : Nat → Nat → Nat → Bool
  | 0, _, _ => dflt
  | fuel + 1, level, scalar =>
    if ScalarSort.levelIsConstant level scalar (isScal scaldims) then
      let c := ScalarSort.constantCmp o.icmp level (isScal scaldims) (scalOf l1) (scalOf l2) scalar
      if c > 0 then true
      else if c < 0 then false
      else followsFrom l1 l2 scaldims dflt fuel level
        (scalar + runLength scaldims (level + scalar - 1))
    else if level ≤ o.dim l1.dom ∧ level ≤ o.dim l2.dom then
      let c := o.follows l1.dom l2.dom level
      if c > 0 then true
      else if c < 0 then false
      else followsFrom l1 l2 scaldims dflt fuel (level + 1) scalar
    else dflt

/-- `cloog_loop_follows` (`source/loop.c:2228-2257`). -/
def follows (l1 l2 : Loop D S) (level scalar : Nat) (scaldims : List Nat) (dflt : Bool) : Bool :=
  followsFrom o l1 l2 scaldims dflt
    (scaldims.length + o.dim l1.dom + o.dim l2.dom + 2) level scalar

/-- `inner_loop_follows` (`source/loop.c:2341-2352`); the loops have an inner loop. -/
def innerFollows (l1 l2 : Loop D S) (level scalar : Nat) (scaldims : List Nat) (dflt : Bool) :
    Bool :=
  o.lazyEqual l1.dom l2.dom ||
    match l1.inner, l2.inner with
    | a :: _, b :: _ => follows o a b level scalar scaldims dflt
    | _, _ => dflt

/-- The edge test of the traversal on positions (`source/loop.c:2385-2386`): the default outcome is
the order of the positions. -/
def edge (fol : Loop D S → Loop D S → Bool → Bool) (ls : List (Loop D S)) (i j : Nat) : Bool :=
  match ls[i]?, ls[j]? with
  | some a, some b => fol a b (decide (j < i))
  | _, _ => false

/-- Split a list of loops into its components (`source/loop.c:2474-2503`): the Tarjan traversal, then
the loops of each component in their original order. -/
def componentsOf (fol : Loop D S → Loop D S → Bool → Bool) (ls : List (Loop D S)) :
    Option (List (List (Loop D S))) :=
  match Tarjan.components (edge fol ls) ls.length (fun _ => (0, false)) with
  | none => none
  | some cs => some (cs.map (fun c => c.filterMap (fun i => ls[i.toNat]?)))

/-- `cloog_loop_decompose_inner` for one loop (`source/loop.c:2538-2572`). -/
def decomposeOne (level scalar : Nat) (scaldims : List Nat) (l : Loop D S) :
    Option (List (Loop D S)) :=
  if l.inner.length ≤ 1 then some [l]
  else
    match componentsOf (fun a b => follows o a b level scalar scaldims) l.inner with
    | none => none
    | some cs => some (cs.map (fun c => Loop.mk l.dom l.otl l.stride l.block c))

/-- `cloog_loop_decompose_inner` (`source/loop.c:2519-2577`). -/
def decomposeInner (level scalar : Nat) (scaldims : List Nat) (ls : List (Loop D S)) :
    Option (List (Loop D S)) := flatMapM (decomposeOne o level scalar scaldims) ls

/-- The body of the loop of `cloog_loop_specialize` (`source/loop.c:857-871`). -/
def specializeOne (l : Loop D S) : Loop D S :=
  match l.inner with
  | [i] =>
    if o.isConvex i.dom ∧ o.isConvex (o.project i.dom (o.dim l.dom)) then
      l.setDom (o.project i.dom (o.dim l.dom))
    else l
  | _ => l

/-- `cloog_loop_specialize` (`source/loop.c:847-874`). -/
def specialize (level scalar : Nat) (scaldims : List Nat) (ls : List (Loop D S)) :
    Option (List (Loop D S)) :=
  match decomposeInner o level scalar scaldims ls with
  | none => none
  | some ds => some (removeEmpty o (ds.map (specializeOne o)))

/-- The body of the loop of `cloog_loop_propagate_lower_bound` (`source/loop.c:889-903`). -/
def propagateOne (l : Loop D S) : Loop D S :=
  match l.inner with
  | [i] =>
    if o.isConvex i.dom ∧ o.isConvex (o.project i.dom (o.dim l.dom)) then
      l.setDom (o.inter (o.project i.dom (o.dim l.dom)) l.dom)
    else l
  | _ => l

/-- `cloog_loop_propagate_lower_bound` (`source/loop.c:881-906`). -/
def propagate (ls : List (Loop D S)) : List (Loop D S) := ls.map (propagateOne o)

/-- The loop made for one inner loop in `cloog_loop_generate_backtrack`
(`source/loop.c:1572-1582`). -/
def backtrackOne (level : Nat) (d : D) (i : Loop D S) : Loop D S :=
  match i.block with
  | some b => .mk d false none none [.mk i.dom false none (some b) []]
  | none => project o level i

/-- The body of `cloog_loop_generate_backtrack` for one loop (`source/loop.c:1566-1600`). -/
def backtrackLoop (fuel level : Nat) (l : Loop D S) : Option (List (Loop D S)) :=
  if l.inner.isEmpty then some []
  else
    match separate o fuel (l.inner.map (backtrackOne o level l.dom)) with
    | none => none
    | some s => sort o level s

/-- `cloog_loop_generate_backtrack` (`source/loop.c:1554-1604`). -/
def backtrack (fuel level : Nat) (ls : List (Loop D S)) : Option (List (Loop D S)) :=
  flatMapM (backtrackLoop o fuel level) ls

/-! ## Per-statement levels -/

/-- `cloog_statement_get_fl` (`source/loop.c:1865-1883`). -/
def statementGetFl (opt : Options) : List Nat → Int × Int → Int × Int
  | [], fl => fl
  | s :: ss, fl =>
    statementGetFl opt ss
      (match opt.fs, opt.ls with
       | some fs, some ls => (max (fs.getD (s - 1) 0) fl.1, max (ls.getD (s - 1) 0) fl.2)
       | _, _ => (-1, -1))

mutual
/-- `cloog_loop_get_fl` (`source/loop.c:1887-1900`), for one loop. -/
def loopGetFl (opt : Options) : Loop D S → Int × Int → Int × Int
  | .mk _ _ _ b inner, fl =>
    loopsGetFl opt inner
      (match b with
       | some b => statementGetFl opt b.stmts fl
       | none => fl)
/-- `cloog_loop_get_fl` (`source/loop.c:1887-1900`), for a list of loops. -/
def loopsGetFl (opt : Options) : List (Loop D S) → Int × Int → Int × Int
  | [], fl => fl
  | l :: ls, fl => loopsGetFl opt ls (loopGetFl opt l fl)
end

/-- The levels `first` and `last` used by `cloog_loop_generate_general` (`source/loop.c:1940-1952`). -/
def levels (opt : Options) (ls : List (Loop D S)) : Int × Int :=
  let fl := loopsGetFl opt ls (-1, -1)
  if fl.1 ≤ 0 ∨ fl.2 < fl.1 then (opt.f, opt.l) else fl

/-! ## Generation -/

/-- The parameters of the generation that do not change: options, `scaldims`. -/
structure Ctx where
  opt : Options
  scaldims : List Nat

/-- Maximal prefix of loops that are not terminal, and the rest (`source/loop.c:1802-1809`). -/
def spanMore (level scalar nbScatt : Nat) (ls : List (Loop D S)) :
    List (Loop D S) × List (Loop D S) :=
  ls.span (fun l => more o l level scalar nbScatt)

/-- The loop over the inner loops in `loop_recurse` (`source/loop.c:1797-1820`), with `gen` the call of
`cloog_loop_generate_restricted_or_stop`.  At most one round per inner loop is needed.
The pointer `next` of a terminal loop is left in place by the C code and overwritten when the next
loops are added. -/
def recurseInner (gen : List (Loop D S) → Option (List (Loop D S))) (level scalar nbScatt : Nat) :
    Nat → List (Loop D S) → Option (List (Loop D S))
  | _, [] => some []
  | 0, _ :: _ => none
  | n + 1, l :: ls =>
    if more o l level scalar nbScatt then
      match gen (spanMore o level scalar nbScatt (l :: ls)).1 with
      | none => none
      | some r =>
        match recurseInner gen level scalar nbScatt n
            (spanMore o level scalar nbScatt (l :: ls)).2 with
        | none => none
        | some rs => some (r ++ rs)
    else
      match recurseInner gen level scalar nbScatt n ls with
      | none => none
      | some rs => some (l :: rs)

/-- The second half of `loop_recurse` (`source/loop.c:1793-1825`): recurse below one loop. -/
def recurseBelow (c : Ctx) (gen : List (Loop D S) → D → Nat → Nat → Option (List (Loop D S)))
    (level scalar : Nat) (l : Loop D S) : Option (Loop D S) :=
  let l := if 0 < level ∧ c.opt.otl = true then loopOtl o level l else l
  let d := match l.stride with
    | none => l.dom
    | some s => o.addStride l.dom s
  match recurseInner o (fun ls => gen ls d (level + 1) scalar) (level + 1) scalar
      c.scaldims.length l.inner.length l.inner with
  | none => none
  | some into => some (l.setInner into)

/-- The outcome of the call of `loop_unroll` in `loop_recurse` (`source/loop.c:1787-1791`). -/
def unrolled : List (Loop D S) → Option (Loop D S ⊕ List (Loop D S))
  | [] => none
  | [m] => some (.inl m)
  | m :: n :: ms => some (.inr (m :: n :: ms))

/-- The first half of `loop_recurse` (`source/loop.c:1782-1791`): the loop after the stride detection,
and the unrolled loops if there are several.  `none` for the read of `loop->next` after an unrolling
that leaves nothing. -/
def recursePrepare (c : Ctx) (constant : Bool) (level scalar : Nat) (l : Loop D S) :
    Option (Loop D S ⊕ List (Loop D S)) :=
  let l := if 0 < level ∧ c.opt.strides = true ∧ constant = false then loopStride o level l else l
  if constant = false ∧ 0 ≤ c.opt.firstUnroll ∧ c.opt.firstUnroll ≤ level + scalar then
    unrolled (unrollOne o level l)
  else some (.inl l)

/-- `loop_recurse` with `constant` set (`source/loop.c:1774-1826`). -/
def loopRecurseConst (c : Ctx) (gen : List (Loop D S) → D → Nat → Nat → Option (List (Loop D S)))
    (level scalar : Nat) (l : Loop D S) : Option (List (Loop D S)) :=
  (recurseBelow o c gen level scalar l).map (fun l => [l])

/-- `loop_recurse` (`source/loop.c:1774-1826`).  The call on the unrolled loops has `constant` set, so
that it does not unroll again. -/
def loopRecurse (c : Ctx) (gen : List (Loop D S) → D → Nat → Nat → Option (List (Loop D S)))
    (constant : Bool) (level scalar : Nat) (l : Loop D S) : Option (List (Loop D S)) :=
  match recursePrepare o c constant level scalar l with
  | none => none
  | some (.inl m) => loopRecurseConst o c gen level scalar m
  | some (.inr ms) => flatMapM (loopRecurseConst o c gen level scalar) ms

/-- `cloog_loop_recurse` (`source/loop.c:1840-1860`). -/
def recurse (c : Ctx) (gen : List (Loop D S) → D → Nat → Nat → Option (List (Loop D S)))
    (constant : Bool) (level scalar : Nat) (ls : List (Loop D S)) : Option (List (Loop D S)) :=
  flatMapM (loopRecurse o c gen constant level scalar) ls

/-- Step 4 for a level from which on loops are only nested (`source/loop.c:1980-1991`). -/
def nestBelow (fuel level : Nat) (l : Loop D S) : Option (List (Loop D S)) :=
  match nest o fuel l.inner l.dom (level + 1) with
  | none => none
  | some i => some [.mk l.dom false none none i]

/-- Step 3 of `cloog_loop_generate_general` (`source/loop.c:1954-1963`): the loops, whether they were
separated and whether the level is constant. -/
def step3 (fuel : Nat) (c : Ctx) (level scalar : Nat) (first : Int) (ls : List (Loop D S)) :
    Option (List (Loop D S) × Bool × Bool) :=
  if 0 < level ∧ isConstant o level ls = true then some (constant o ls, false, true)
  else if first > level + scalar ∨ first < 0 then
    (merge o fuel level c.opt ls).map (fun r => (r, false, false))
  else (separate o fuel ls).map (fun r => (r, true, false))

/-- Steps 3b: sort, restrict the inner loops, specialize (`source/loop.c:1965-1971`). -/
def step3b (c : Ctx) (level scalar : Nat) (separated : Bool) (ls : List (Loop D S)) :
    Option (List (Loop D S)) :=
  match sort o level ls with
  | none => none
  | some r =>
    if separated then specialize o level scalar c.scaldims (restrictInner o r)
    else some (restrictInner o r)

/-- Step 4 (`source/loop.c:1973-1991`). -/
def step4 (fuel : Nat) (c : Ctx)
    (gen : List (Loop D S) → D → Nat → Nat → Option (List (Loop D S)))
    (level scalar : Nat) (last : Int) (constant : Bool) (ls : List (Loop D S)) :
    Option (List (Loop D S)) :=
  if level = 0 ∨ (level + scalar : Int) < last ∨ last < 0 then
    recurse o c gen constant level scalar ls
  else flatMapM (nestBelow o fuel level) ls

/-- Step 5 (`source/loop.c:1993-2002`). -/
def step5 (fuel : Nat) (c : Ctx) (level scalar : Nat) (first last : Int) (ls : List (Loop D S)) :
    Option (List (Loop D S)) :=
  let ls := if c.opt.strides then propagate o ls else ls
  if c.opt.backtrack = true ∧ 0 < level ∧ ((level + scalar : Int) < last ∨ last < 0) ∧
      (first ≤ level + scalar ∧ ¬ first < 0) then
    backtrack o fuel level ls
  else some ls

/-- `cloog_loop_generate_general` (`source/loop.c:1929-2012`). -/
def generateGeneral (fuel : Nat) (c : Ctx)
    (gen : List (Loop D S) → D → Nat → Nat → Option (List (Loop D S)))
    (level scalar : Nat) (ls : List (Loop D S)) : Option (List (Loop D S)) :=
  let fl := levels c.opt ls
  match step3 o fuel c level scalar fl.1 ls with
  | none => none
  | some (r3, separated, constant) =>
    match step3b o c level scalar separated r3 with
    | none => none
    | some r3b =>
      match step4 o fuel c gen level scalar fl.2 constant r3b with
      | none => none
      | some r4 => step5 o fuel c level scalar fl.1 fl.2 r4

/-- `cloog_loop_generate_components` (`source/loop.c:2462-2512`). -/
def generateComponents (fuel : Nat) (c : Ctx)
    (gen : List (Loop D S) → D → Nat → Nat → Option (List (Loop D S)))
    (level scalar : Nat) (ls : List (Loop D S)) : Option (List (Loop D S)) :=
  if level = 0 ∨ ls.length ≤ 1 then generateGeneral o fuel c gen level scalar ls
  else
    match componentsOf (fun a b => innerFollows o a b level scalar c.scaldims) ls with
    | none => none
    | some cs =>
      match flatMapM (generateGeneral o fuel c gen level scalar) cs with
      | none => none
      | some r => some (combine o r)

/-- Split a list into the maximal groups that `cloog_loop_generate_scalar` handles together
(`source/loop.c:2052-2067`): the loops after the first one that are not terminal and have the same
scalar vector as the first one. -/
def scalarGroup (c : Ctx) (level scalar scalarNew : Nat) (ref : Loop D S) :
    List (Loop D S) → List (Loop D S) × List (Loop D S) :=
  List.span (fun m => more o m level scalarNew c.scaldims.length &&
    ScalarSort.scalarEq o.icmp level (isScal c.scaldims) scalar (scalOf ref) (scalOf m))

/-- The `while (temp != NULL)` loop of `cloog_loop_generate_scalar` (`source/loop.c:2050-2080`), with
`gen` the call of `cloog_loop_generate_restricted`.  A terminal loop that starts a group is added by
`cloog_loop_add`, which moves the end pointer to that loop only: the other loops of its group stay in
the list, as they are, if nothing is added after them, and are dropped by the next addition
otherwise. -/
def scalarLoop (c : Ctx) (gen : List (Loop D S) → Option (List (Loop D S)))
    (level scalar scalarNew : Nat) : Nat → List (Loop D S) → Option (List (Loop D S))
  | _, [] => some []
  | 0, _ :: _ => none
  | n + 1, l :: ls =>
    if more o l level scalarNew c.scaldims.length then
      match gen (l :: (scalarGroup o c level scalar scalarNew l ls).1) with
      | none => none
      | some r =>
        match scalarLoop c gen level scalar scalarNew n
            (scalarGroup o c level scalar scalarNew l ls).2 with
        | none => none
        | some rs => some (r ++ rs)
    else
      match scalarLoop c gen level scalar scalarNew n
          (scalarGroup o c level scalar scalarNew l ls).2 with
      | none => none
      | some [] => some (l :: (scalarGroup o c level scalar scalarNew l ls).1)
      | some (r :: rs) => some (l :: r :: rs)

/-- `cloog_loop_generate_scalar` (`source/loop.c:2039-2083`). -/
def generateScalar (c : Ctx) (gen : List (Loop D S) → Nat → Option (List (Loop D S)))
    (level scalar : Nat) (ls : List (Loop D S)) : Option (List (Loop D S)) :=
  let gt := fun a b : Loop D S =>
    ScalarSort.scalarGt o.icmp level (isScal c.scaldims) scalar (scalOf a) (scalOf b)
  let scalarNew := scalar + runLength c.scaldims (level + scalar - 1)
  match ScalarSort.bubble gt (ls.length * ls.length + 1) ls with
  | none => none
  | some s => scalarLoop o c (fun g => gen g scalarNew) level scalar scalarNew s.length s

/-- `cloog_loop_generate_restricted` (`source/loop.c:2580-2599`) and
`cloog_loop_generate_restricted_or_stop` (`source/loop.c:2602-2613`), mutually recursive through
`cloog_loop_generate_general`; the flag selects the latter. -/
def generateRestricted (c : Ctx) : Nat → Bool → List (Loop D S) → D → Nat → Nat →
    Option (List (Loop D S))
  | 0, _, _, _, _, _ => none
  | fuel + 1, orStop, ls, ctx, level, scalar =>
    if orStop = true ∧ 0 ≤ c.opt.stop ∧ c.opt.stop + 1 ≤ level + scalar then some (stop ls ctx)
    else if ScalarSort.levelIsConstant level scalar (isScal c.scaldims) then
      generateScalar o c (fun g sc => generateRestricted c fuel false g ctx level sc) level scalar ls
    else
      generateComponents o fuel c
        (fun g d lev sc => generateRestricted c fuel true g d lev sc) level scalar
        (projectAll o ls level)

/-- `cloog_loop_generate` (`source/loop.c:2642-2654`). -/
def generate (c : Ctx) (fuel : Nat) (ls : List (Loop D S)) (ctx : D) (level scalar : Nat) :
    Option (List (Loop D S)) :=
  if (restrictAll o ls ctx).isEmpty then some []
  else generateRestricted o c fuel true (restrictAll o ls ctx) ctx level scalar

/-! ## Simplification -/

/-- The preparation of `cloog_loop_simplify` (`source/loop.c:2743-2757`). -/
def simplifyPrepare (fuel : Nat) (ls : List (Loop D S)) : Option (List (Loop D S)) :=
  let ls' := ls.map (fun l => if o.isConvex l.dom then l else l.setDom (o.simplifyUnion l.dom))
  if ls'.all (fun l => o.isConvex l.dom) then some ls' else disjoint o fuel ls'

/-- `loop_simplify` (`source/loop.c:2661-2711`), with `simp` the recursive call of
`cloog_loop_simplify`.  The outer option is the fuel, the inner one the `NULL` result. -/
def loopSimplify (simp : List (Loop D S) → D → Option (List (Loop D S))) (l : Loop D S) (ctx : D) :
    Option (Option (Loop D S)) :=
  let ext := o.extend ctx (o.dim l.dom)
  if o.neverIntegral (o.gist l.dom ext) then some none
  else
    match simp l.inner (o.inter l.dom ext) with
    | none => none
    | some inner =>
      if inner.isEmpty = true ∧ l.block = none then some none
      else some (some (.mk (o.gist l.dom ext) l.otl l.stride l.block inner))

/-- `cloog_loop_simplify` (`source/loop.c:2735-2770`).  The level is only passed on. -/
def simplify : Nat → List (Loop D S) → D → Option (List (Loop D S))
  | 0, _, _ => none
  | fuel + 1, ls, ctx =>
    match simplifyPrepare o fuel ls with
    | none => none
    | some ds =>
      flatMapM (fun l => (loopSimplify o (simplify fuel) l ctx).map Option.toList) ds

end Verif.Loop
