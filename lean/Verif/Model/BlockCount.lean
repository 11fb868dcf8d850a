import Verif.Model.Loop

/-!
# The references to blocks

A block has a counter of the references to it: `cloog_block_copy` adds one (source/block.c:358-364), `cloog_block_free` takes
one away and frees the block, with its statements, when none is left (source/block.c:199-218). The loops are what refers to a
block during generation: a loop is copied with `cloog_block_copy` (source/loop.c:504) and freed with `cloog_block_free`, by
`cloog_loop_free` (source/loop.c:266) and by `cloog_loop_free_parts` if the argument `block` is set (source/loop.c:298-299);
many functions rather move the pointer to a new loop and free the old one without its block. Here the calls made by the
functions of `Model/Loop.lean` are counted. `net` is the number of calls of `cloog_block_copy` minus the number of calls of
`cloog_block_free`, `lost` counts the pointers that disappear without `cloog_block_free`, and `dup` the pointers that are made
without `cloog_block_copy`. The blocks to look at are chosen by `Which`; what is proved is proved for any choice, in particular
for each single block.

Each definition `fC` stands for the calls made by the function `f` of `Model/Loop.lean`, and cites the lines of the calls.
-/

namespace Verif.BlockCount
open Verif.Loop

/-- How often a block counts: one for the blocks that are looked at, zero for the others, for instance. No code corresponds. -/
class Which where
  blk : Block → Nat

/-- The pointer of a loop to a block (`block` of `struct cloogloop`, include/cloog/loop.h:62-78), which may be null. -/
def hold [Which] : Option Block → Nat
  | none => 0
  | some b => Which.blk b

/-- Changes of the counters `references` (include/cloog/block.h:64-80), pointers dropped and pointers duplicated. -/
structure Cost where
  net : Int
  drop : Nat
  dup : Nat
  deriving DecidableEq

instance : Add Cost := ⟨fun a b => ⟨a.net + b.net, a.drop + b.drop, a.dup + b.dup⟩⟩

/-- No counter changes. -/
def idle : Cost := ⟨0, 0, 0⟩
/-- `n` calls of `cloog_block_copy` (source/block.c:358-364). -/
def alloc (n : Nat) : Cost := ⟨n, 0, 0⟩
/-- `n` calls of `cloog_block_free` (source/block.c:199-218). -/
def free (n : Nat) : Cost := ⟨-n, 0, 0⟩
/-- `n` pointers that disappear, as in `cloog_loop_free_parts` without `block` (source/loop.c:298). -/
def lose (n : Nat) : Cost := ⟨0, n, 0⟩
/-- `n` pointers that are copied without counting (source/loop.c:2566). -/
def share (n : Nat) : Cost := ⟨0, 0, n⟩

variable {D S C : Type} [Which]

mutual
/-- The pointers to blocks in a loop and the loops in it: the calls of `cloog_block_free` by `cloog_loop_free` for a loop
without `next` (source/loop.c:257-275), and of `cloog_block_copy` by `cloog_loop_copy` (source/loop.c:496-513). -/
def held : Loop D S → Nat
  | .mk _ _ _ b inner => hold b + helds inner
/-- The same for a list of loops. -/
def helds : List (Loop D S) → Nat
  | [] => 0
  | l :: ls => held l + helds ls
end

/-- The pointers of the loops of a list, without those of inner loops (source/loop.c:286-312 with `next`, without
`inner`). -/
def tops : List (Loop D S) → Nat
  | [] => 0
  | l :: ls => hold l.block + tops ls

/-- The calls for all elements of a list. -/
def total {α : Type} (f : α → Cost) : List α → Cost
  | [] => idle
  | a :: as => f a + total f as

variable (o : DomOps D S C)

/-- source/loop.c:569-579: a copy of the inner loops and of the block for each part. -/
def splitRestC (recC : Loop D S → Cost) (block : Option Block) (inner : List (Loop D S)) : Nat → D → D → Cost
  | 0, _, _ => idle
  | fuel + 1, rest, seen =>
    if o.isEmpty rest then idle
    else if o.isEmpty (o.diff (o.cutFirst rest).1 seen) then splitRestC recC block inner fuel (o.cutFirst rest).2 seen
    else
      alloc (helds inner) + alloc (hold block) +
      (if o.isConvex (o.diff (o.cutFirst rest).1 seen) then idle
        else recC (Loop.mk (o.diff (o.cutFirst rest).1 seen) false none block inner)) +
      (if o.isEmpty (o.cutFirst rest).2 then idle
        else splitRestC recC block inner fuel (o.cutFirst rest).2 (o.union seen (o.diff (o.cutFirst rest).1 seen)))

/-- source/loop.c:550, 589: the first part gets the block. -/
def addDisjointC : Nat → Loop D S → Cost
  | 0, _ => idle
  | fuel + 1, l =>
    if o.isConvex l.dom then idle
    else splitRestC o (addDisjointC fuel) l.block l.inner fuel
          (o.cutFirst (o.simplifyUnion l.dom)).2 (o.cutFirst (o.simplifyUnion l.dom)).1

/-- source/loop.c:603-618. -/
def disjointC (fuel : Nat) (ls : List (Loop D S)) : Cost := total (addDisjointC o fuel) ls

/-- source/loop.c:672-679: the block is moved (653, 675), or freed with the loop. -/
def restrictAllC (ls : List (Loop D S)) (ctx : D) : Cost :=
  total (fun l => if (restrict o l ctx).isSome then idle else free (held l)) ls

/-- source/loop.c:701-708; a loop that is freed has no inner loops then. -/
def restrictInnerC (ls : List (Loop D S)) : Cost :=
  total (fun l => restrictAllC o l.inner l.dom + if (restrictAll o l.inner l.dom).isEmpty then free (hold l.block) else idle) ls

/-- source/loop.c:808: the block of the second loop is not freed. -/
def combineFromC : Loop D S → List (Loop D S) → Cost
  | _, [] => idle
  | a, b :: ls =>
    if o.lazyEqual a.dom b.dom then lose (hold b.block) + combineFromC (a.setInner (a.inner ++ b.inner)) ls
    else combineFromC b ls

/-- source/loop.c:797-813. -/
def combineC : List (Loop D S) → Cost
  | [] => idle
  | a :: ls => combineFromC o a ls

/-- source/loop.c:827. -/
def removeEmptyC (ls : List (Loop D S)) : Cost := total (fun l => if o.isEmpty l.dom then free (held l) else idle) ls

/-- source/loop.c:961-966. -/
def sepInterC (fuel : Nat) (q l : Loop D S) : Cost :=
  match sepInter o q l with
  | none => idle
  | some p => alloc (helds q.inner) + alloc (helds l.inner) + addDisjointC o fuel p

/-- source/loop.c:983-994. -/
def sepDiffC (fuel : Nat) (q l : Loop D S) : Cost :=
  match sepDiff o q l with
  | none => free (helds q.inner)
  | some p => addDisjointC o fuel p

/-- source/loop.c:1007-1016. -/
def sepRestC (fuel : Nat) (uq : D) (l : Loop D S) : Cost :=
  match sepRest o uq l with
  | none => free (helds l.inner)
  | some p => addDisjointC o fuel p

/-- source/loop.c:944-1027: one round; the loops of `res` are freed without their blocks (1025). -/
def sepStepC (fuel : Nat) (res : List (Loop D S)) (uq : D) (l : Loop D S) : Cost :=
  total (fun q => sepInterC o fuel q l + sepDiffC o fuel q l) res + sepRestC o fuel uq l + lose (tops res)

/-- source/loop.c:944-1028. -/
def sepLoopC (fuel : Nat) : List (Loop D S) → List (Loop D S) → D → Cost
  | [], _, _ => idle
  | l :: ls, res, uq =>
    match flatMapM (addDisjoint o fuel) (sepPieces o res uq l) with
    | none => idle
    | some res' => sepStepC o fuel res uq l + sepLoopC fuel ls res' (o.union uq l.dom)

/-- source/loop.c:933-1029: `combine`, the first block goes to `res` (941), and the old list is freed without its blocks (1029). -/
def separateC (fuel : Nat) (ls : List (Loop D S)) : Cost :=
  combineC o ls +
  match combine o ls with
  | [] => idle
  | [l] => disjointC o fuel [l]
  | l :: ls' => sepLoopC o fuel ls' [.mk l.dom false none l.block l.inner] l.dom + lose (tops ls')

/-- source/loop.c:1099-1114. -/
def mergeSplitC (opt : Options) (temp : D) (inner : List (Loop D S)) : Nat → D → Cost
  | 0, _ => idle
  | fuel + 1, splitter =>
    if o.isConvex splitter then
      if o.isEmpty (boundingDomain o opt (o.inter splitter temp)) then free (helds inner) else idle
    else
      (if o.isEmpty (boundingDomain o opt (o.inter (o.cutFirst splitter).1 temp)) then idle
        else alloc (helds inner)) +
      mergeSplitC opt temp inner fuel (o.cutFirst splitter).2

/-- source/loop.c:1053-1124; the old list is freed without its blocks (1121). -/
def mergeC (fuel : Nat) (level : Nat) (opt : Options) : List (Loop D S) → Cost
  | [] => idle
  | l :: ls =>
    if ls.isEmpty ∧ o.isConvex l.dom then idle
    else
      let temp := unionDom o l.dom ls
      let nd := boundingDomain o opt temp
      (if 0 < level ∧ o.isBounded nd level = false ∧ o.isBounded temp level = true then
        mergeSplitC o opt temp ((l :: ls).flatMap Loop.inner) fuel (o.boundSplitter temp level)
      else idle) + lose (tops (l :: ls))

/-- source/loop.c:1216-1242: the block is moved twice (653, 1223), or freed with the loop (1242). -/
def nestOneC (ctx : D) (l : Loop D S) : Cost := if (restrict o l ctx).isSome then idle else free (held l)

/-- source/loop.c:1206-1248. -/
def nestC (fuel : Nat) (ls : List (Loop D S)) (ctx : D) : Cost :=
  disjointC o fuel ls +
  match disjoint o fuel ls with
  | none => idle
  | some ds => total (nestOneC o ctx) ds

/-- source/loop.c:1674-1676: the blocks are not freed. -/
def constantC : List (Loop D S) → Cost
  | [] => idle
  | l :: ls => lose (tops (l :: ls))

/-- source/loop.c:1710-1725. -/
def unrollOneC (level : Nat) (l : Loop D S) : Cost :=
  match o.canUnroll l.dom level with
  | none => idle
  | some (n, lb) =>
    total (fun i : Nat =>
      alloc (helds l.inner) + restrictAllC o l.inner (o.fixedOffset l.dom level lb i)) (List.range n.toNat) +
    free (held l)

/-- source/loop.c:2565-2566: a new loop for each component but the first, with the same block, which is not counted. -/
def decomposeOneC (level scalar : Nat) (scaldims : List Nat) (l : Loop D S) : Cost :=
  if l.inner.length ≤ 1 then idle
  else
    match componentsOf (fun a b => follows o a b level scalar scaldims) l.inner with
    | none => idle
    | some cs => share ((cs.length - 1) * hold l.block)

/-- source/loop.c:847-874. -/
def specializeC (level scalar : Nat) (scaldims : List Nat) (ls : List (Loop D S)) : Cost :=
  total (decomposeOneC o level scalar scaldims) ls +
  match decomposeInner o level scalar scaldims ls with
  | none => idle
  | some ds => removeEmptyC o (ds.map (specializeOne o))

/-- source/loop.c:1572-1582: the block is moved; the inner loops of a loop with a block are not looked at. -/
def backtrackOneC (i : Loop D S) : Cost :=
  match i.block with
  | some _ => lose (helds i.inner)
  | none => idle

/-- source/loop.c:1564-1601; 1599. -/
def backtrackLoopC (fuel level : Nat) (l : Loop D S) : Cost :=
  total backtrackOneC l.inner +
  (if l.inner.isEmpty then idle else separateC o fuel (l.inner.map (backtrackOne o level l.dom))) + lose (hold l.block)

/-- source/loop.c:1797-1820. -/
def recurseInnerC (genC : List (Loop D S) → Cost) (level scalar nbScatt : Nat) : Nat → List (Loop D S) → Cost
  | _, [] => idle
  | 0, _ :: _ => idle
  | n + 1, l :: ls =>
    if more o l level scalar nbScatt then
      genC (spanMore o level scalar nbScatt (l :: ls)).1 +
        recurseInnerC genC level scalar nbScatt n (spanMore o level scalar nbScatt (l :: ls)).2
    else recurseInnerC genC level scalar nbScatt n ls

/-- source/loop.c:1793-1825. -/
def recurseBelowC (c : Ctx) (genC : List (Loop D S) → D → Nat → Nat → Cost) (level scalar : Nat) (l : Loop D S) : Cost :=
  let l := if 0 < level ∧ c.opt.otl = true then loopOtl o level l else l
  let d := match l.stride with
    | none => l.dom
    | some s => o.addStride l.dom s
  recurseInnerC o (fun ls => genC ls d (level + 1) scalar) (level + 1) scalar c.scaldims.length l.inner.length l.inner

/-- source/loop.c:1782-1788. -/
def recursePrepareC (c : Ctx) (constant : Bool) (level scalar : Nat) (l : Loop D S) : Cost :=
  let l := if 0 < level ∧ c.opt.strides = true ∧ constant = false then loopStride o level l else l
  if constant = false ∧ 0 ≤ c.opt.firstUnroll ∧ c.opt.firstUnroll ≤ level + scalar then unrollOneC o level l else idle

/-- source/loop.c:1774-1826. -/
def loopRecurseC (c : Ctx) (genC : List (Loop D S) → D → Nat → Nat → Cost) (constant : Bool) (level scalar : Nat)
    (l : Loop D S) : Cost :=
  recursePrepareC o c constant level scalar l +
  match recursePrepare o c constant level scalar l with
  | none => idle
  | some (.inl m) => recurseBelowC o c genC level scalar m
  | some (.inr ms) => total (recurseBelowC o c genC level scalar) ms

/-- source/loop.c:1979-1984: the block is not moved (1981). -/
def nestBelowC (fuel : Nat) (l : Loop D S) : Cost := nestC o fuel l.inner l.dom + lose (hold l.block)

/-- source/loop.c:1954-1963. -/
def step3C (fuel : Nat) (c : Ctx) (level scalar : Nat) (first : Int) (ls : List (Loop D S)) : Cost :=
  if 0 < level ∧ isConstant o level ls = true then constantC ls
  else if first > level + scalar ∨ first < 0 then mergeC o fuel level c.opt ls
  else separateC o fuel ls

/-- source/loop.c:1965-1971. -/
def step3bC (c : Ctx) (level scalar : Nat) (separated : Bool) (ls : List (Loop D S)) : Cost :=
  match sort o level ls with
  | none => idle
  | some r => restrictInnerC o r + if separated then specializeC o level scalar c.scaldims (restrictInner o r) else idle

/-- source/loop.c:1973-1991. -/
def step4C (fuel : Nat) (c : Ctx) (genC : List (Loop D S) → D → Nat → Nat → Cost) (level scalar : Nat) (last : Int)
    (constant : Bool) (ls : List (Loop D S)) : Cost :=
  if level = 0 ∨ (level + scalar : Int) < last ∨ last < 0 then total (loopRecurseC o c genC constant level scalar) ls
  else total (nestBelowC o fuel) ls

/-- source/loop.c:1990-2002. -/
def step5C (fuel : Nat) (c : Ctx) (level scalar : Nat) (first last : Int) (ls : List (Loop D S)) : Cost :=
  let ls := if c.opt.strides then propagate o ls else ls
  if c.opt.backtrack = true ∧ 0 < level ∧ ((level + scalar : Int) < last ∨ last < 0) ∧
      (first ≤ level + scalar ∧ ¬ first < 0) then total (backtrackLoopC o fuel level) ls
  else idle

/-- source/loop.c:1929-2012. -/
def generateGeneralC (fuel : Nat) (c : Ctx) (gen : List (Loop D S) → D → Nat → Nat → Option (List (Loop D S)))
    (genC : List (Loop D S) → D → Nat → Nat → Cost) (level scalar : Nat) (ls : List (Loop D S)) : Cost :=
  let fl := levels c.opt ls
  step3C o fuel c level scalar fl.1 ls +
  match step3 o fuel c level scalar fl.1 ls with
  | none => idle
  | some (r3, separated, constant) =>
    step3bC o c level scalar separated r3 +
    match step3b o c level scalar separated r3 with
    | none => idle
    | some r3b =>
      step4C o fuel c genC level scalar fl.2 constant r3b +
      match step4 o fuel c gen level scalar fl.2 constant r3b with
      | none => idle
      | some r4 => step5C o fuel c level scalar fl.1 fl.2 r4

/-- source/loop.c:2462-2512. -/
def generateComponentsC (fuel : Nat) (c : Ctx) (gen : List (Loop D S) → D → Nat → Nat → Option (List (Loop D S)))
    (genC : List (Loop D S) → D → Nat → Nat → Cost) (level scalar : Nat) (ls : List (Loop D S)) : Cost :=
  if level = 0 ∨ ls.length ≤ 1 then generateGeneralC o fuel c gen genC level scalar ls
  else
    match componentsOf (fun a b => innerFollows o a b level scalar c.scaldims) ls with
    | none => idle
    | some cs =>
      total (generateGeneralC o fuel c gen genC level scalar) cs +
      match flatMapM (generateGeneral o fuel c gen level scalar) cs with
      | none => idle
      | some r => combineC o r

/-- source/loop.c:2050-2080: loops of the group of a terminal loop are lost if something is added after them. -/
def scalarLoopC (c : Ctx) (gen : List (Loop D S) → Option (List (Loop D S))) (genC : List (Loop D S) → Cost)
    (level scalar scalarNew : Nat) : Nat → List (Loop D S) → Cost
  | _, [] => idle
  | 0, _ :: _ => idle
  | n + 1, l :: ls =>
    scalarLoopC c gen genC level scalar scalarNew n (scalarGroup o c level scalar scalarNew l ls).2 +
    if more o l level scalarNew c.scaldims.length then genC (l :: (scalarGroup o c level scalar scalarNew l ls).1)
    else
      match scalarLoop o c gen level scalar scalarNew n (scalarGroup o c level scalar scalarNew l ls).2 with
      | some (_ :: _) => lose (helds (scalarGroup o c level scalar scalarNew l ls).1)
      | _ => idle

/-- source/loop.c:2039-2083. -/
def generateScalarC (c : Ctx) (gen : List (Loop D S) → Nat → Option (List (Loop D S)))
    (genC : List (Loop D S) → Nat → Cost) (level scalar : Nat) (ls : List (Loop D S)) : Cost :=
  let gt := fun a b : Loop D S => ScalarSort.scalarGt o.icmp level (isScal c.scaldims) scalar (scalOf a) (scalOf b)
  let scalarNew := scalar + runLength c.scaldims (level + scalar - 1)
  match ScalarSort.bubble gt (ls.length * ls.length + 1) ls with
  | none => idle
  | some s => scalarLoopC o c (fun g => gen g scalarNew) (fun g => genC g scalarNew) level scalar scalarNew s.length s

/-- source/loop.c:2580-2613. `-stop` keeps the blocks (source/loop.c:1400-1410), and so do projections
(source/loop.c:732, 761). -/
def generateRestrictedC (c : Ctx) : Nat → Bool → List (Loop D S) → D → Nat → Nat → Cost
  | 0, _, _, _, _, _ => idle
  | fuel + 1, orStop, ls, ctx, level, scalar =>
    if orStop = true ∧ 0 ≤ c.opt.stop ∧ c.opt.stop + 1 ≤ level + scalar then idle
    else if ScalarSort.levelIsConstant level scalar (isScal c.scaldims) then
      generateScalarC o c (fun g sc => generateRestricted o c fuel false g ctx level sc)
        (fun g sc => generateRestrictedC c fuel false g ctx level sc) level scalar ls
    else
      generateComponentsC o fuel c (fun g d lev sc => generateRestricted o c fuel true g d lev sc)
        (fun g d lev sc => generateRestrictedC c fuel true g d lev sc) level scalar (projectAll o ls level)

/-- source/loop.c:2642-2654. -/
def generateC (c : Ctx) (fuel : Nat) (ls : List (Loop D S)) (ctx : D) (level scalar : Nat) : Cost :=
  restrictAllC o ls ctx +
  if (restrictAll o ls ctx).isEmpty then idle else generateRestrictedC o c fuel true (restrictAll o ls ctx) ctx level scalar

/-- source/loop.c:2743-2757. -/
def simplifyPrepareC (fuel : Nat) (ls : List (Loop D S)) : Cost :=
  let ls' := ls.map (fun l => if o.isConvex l.dom then l else l.setDom (o.simplifyUnion l.dom))
  if ls'.all (fun l => o.isConvex l.dom) then idle else disjointC o fuel ls'

/-- source/loop.c:2679 and 2694. -/
def loopSimplifyC (simp : List (Loop D S) → D → Option (List (Loop D S))) (simpC : List (Loop D S) → D → Cost)
    (l : Loop D S) (ctx : D) : Cost :=
  let ext := o.extend ctx (o.dim l.dom)
  if o.neverIntegral (o.gist l.dom ext) then free (helds l.inner)
  else
    simpC l.inner (o.inter l.dom ext) +
    match simp l.inner (o.inter l.dom ext) with
    | none => idle
    | some inner => if inner.isEmpty = true ∧ l.block = none then idle else alloc (hold l.block)

/-- source/loop.c:2735-2770; the old list is freed at 2767, when the loops have no inner loops any more. -/
def simplifyC : Nat → List (Loop D S) → D → Cost
  | 0, _, _ => idle
  | fuel + 1, ls, ctx =>
    simplifyPrepareC o fuel ls +
    match simplifyPrepare o fuel ls with
    | none => idle
    | some ds => total (fun l => loopSimplifyC o (simplify o fuel) (simplifyC fuel) l ctx) ds + free (tops ds)

/-- source/program.c:1083-1106 of `cloog_program_generate`, and `cloog_loop_free` on the result in `cloog_program_free`
(source/program.c:811-820): the calls between the construction of the loops `ls` and the end of `main`. -/
def programC (c : Ctx) (simp : Bool) (fuel : Nat) (ls : List (Loop D S)) (ctx : D) : Cost :=
  generateC o c fuel ls ctx 0 0 +
  match generate o c fuel ls ctx 0 0 with
  | none => idle
  | some t =>
    if simp then
      simplifyC o fuel t ctx +
      match simplify o fuel t ctx with
      | none => idle
      | some t' => free (helds t')
    else free (helds t)

end Verif.BlockCount
