import Verif.Model.Loop

/-!
# How many loops are allocated and freed

The calls of `cloog_loop_malloc` (source/loop.c:392-414, with `cloog_loop_leak_up` 119-124) and of `cloog_loop_free`
and `cloog_loop_free_parts` (source/loop.c:257-312, with `cloog_loop_leak_down` 127-130) made by the functions of
`Model/Loop.lean`, as counted by the state (`loop_allocated`, `loop_freed`), which `main` compares at the end
(source/cloog.c:64-92). `net` is the number of allocations minus the number of loops freed. Besides, `lost` counts the
loops that are no longer reachable and are not freed either. Only loops are counted, not domains, blocks or statements.

Each definition `fC` stands for the calls made by the function `f` of `Model/Loop.lean`, and cites the lines of the calls.
-/

namespace Verif.LoopCount
open Verif.Loop

/-- Changes of `state->loop_allocated - state->loop_freed` (include/cloog/state.h), and loops lost. -/
structure Cost where
  net : Int
  lost : Nat
  deriving DecidableEq

instance : Add Cost := ⟨fun a b => ⟨a.net + b.net, a.lost + b.lost⟩⟩

/-- Nothing is allocated or freed. -/
def idle : Cost := ⟨0, 0⟩
/-- `n` calls of `cloog_loop_malloc` (source/loop.c:392-414). -/
def alloc (n : Nat) : Cost := ⟨n, 0⟩
/-- `n` rounds of the loops of `cloog_loop_free` or `cloog_loop_free_parts` (source/loop.c:257-312). -/
def free (n : Nat) : Cost := ⟨-n, 0⟩
/-- `n` loops that nothing points to any more. -/
def lose (n : Nat) : Cost := ⟨0, n⟩

variable {D S C : Type}

mutual
/-- The loop and the loops in it: what `cloog_loop_free` frees of a loop without `next` (source/loop.c:257-275), and what
`cloog_loop_copy` allocates (source/loop.c:496-513). -/
def size : Loop D S → Nat
  | .mk _ _ _ _ inner => 1 + sizes inner
/-- The same for a list of loops. -/
def sizes : List (Loop D S) → Nat
  | [] => 0
  | l :: ls => size l + sizes ls
end

/-- The calls for all elements of a list. -/
def total {α : Type} (f : α → Cost) : List α → Cost
  | [] => idle
  | a :: as => f a + total f as

variable (o : DomOps D S C)

/-- source/loop.c:569-579: a copy of the inner loops and a new loop for each part. -/
def splitRestC (recC : Loop D S → Cost) (block : Option Block) (inner : List (Loop D S)) : Nat → D → D → Cost
  | 0, _, _ => idle
  | fuel + 1, rest, seen =>
    if o.isEmpty rest then idle
    else if o.isEmpty (o.diff (o.cutFirst rest).1 seen) then splitRestC recC block inner fuel (o.cutFirst rest).2 seen
    else
      alloc (sizes inner) + alloc 1 +
      (if o.isConvex (o.diff (o.cutFirst rest).1 seen) then idle
        else recC (Loop.mk (o.diff (o.cutFirst rest).1 seen) false none block inner)) +
      (if o.isEmpty (o.cutFirst rest).2 then idle
        else splitRestC recC block inner fuel (o.cutFirst rest).2 (o.union seen (o.diff (o.cutFirst rest).1 seen)))

/-- source/loop.c:550, 589. -/
def addDisjointC : Nat → Loop D S → Cost
  | 0, _ => idle
  | fuel + 1, l =>
    if o.isConvex l.dom then idle
    else alloc 1 + splitRestC o (addDisjointC fuel) l.block l.inner fuel
          (o.cutFirst (o.simplifyUnion l.dom)).2 (o.cutFirst (o.simplifyUnion l.dom)).1 + free 1

/-- source/loop.c:603-618. -/
def disjointC (fuel : Nat) (ls : List (Loop D S)) : Cost := total (addDisjointC o fuel) ls

/-- source/loop.c:652. -/
def restrictC (l : Loop D S) (ctx : D) : Cost := if (restrict o l ctx).isSome then alloc 1 else idle

/-- source/loop.c:672-679. -/
def restrictAllC (ls : List (Loop D S)) (ctx : D) : Cost :=
  total (fun l => restrictC o l ctx + if (restrict o l ctx).isSome then free 1 else free (size l)) ls

/-- source/loop.c:701-708; a loop that is freed has no inner loops then. -/
def restrictInnerC (ls : List (Loop D S)) : Cost :=
  total (fun l => restrictAllC o l.inner l.dom + if (restrictAll o l.inner l.dom).isEmpty then free 1 else idle) ls

/-- source/loop.c:731, 739. -/
def projectC : Cost := alloc 2

/-- source/loop.c:759-761. -/
def projectAllC (ls : List (Loop D S)) : Cost := total (fun _ => projectC + free 1) ls

/-- source/loop.c:808. -/
def combineFromC : Loop D S → List (Loop D S) → Cost
  | _, [] => idle
  | a, b :: ls =>
    if o.lazyEqual a.dom b.dom then free 1 + combineFromC (a.setInner (a.inner ++ b.inner)) ls
    else combineFromC b ls

/-- source/loop.c:797-813. -/
def combineC : List (Loop D S) → Cost
  | [] => idle
  | a :: ls => combineFromC o a ls

/-- source/loop.c:827. -/
def removeEmptyC (ls : List (Loop D S)) : Cost := total (fun l => if o.isEmpty l.dom then free (size l) else idle) ls

/-- source/loop.c:961-966. -/
def sepInterC (fuel : Nat) (q l : Loop D S) : Cost :=
  match sepInter o q l with
  | none => idle
  | some p => alloc (sizes q.inner) + alloc (sizes l.inner) + alloc 1 + addDisjointC o fuel p

/-- source/loop.c:983-994. -/
def sepDiffC (fuel : Nat) (q l : Loop D S) : Cost :=
  match sepDiff o q l with
  | none => free (sizes q.inner)
  | some p => alloc 1 + addDisjointC o fuel p

/-- source/loop.c:1007-1016. -/
def sepRestC (fuel : Nat) (uq : D) (l : Loop D S) : Cost :=
  match sepRest o uq l with
  | none => free (sizes l.inner)
  | some p => alloc 1 + addDisjointC o fuel p

/-- source/loop.c:944-1027: one round; the loops of `res` are freed without their inner loops (1025). -/
def sepStepC (fuel : Nat) (res : List (Loop D S)) (uq : D) (l : Loop D S) : Cost :=
  total (fun q => sepInterC o fuel q l + sepDiffC o fuel q l) res + sepRestC o fuel uq l + free res.length

/-- source/loop.c:944-1028. -/
def sepLoopC (fuel : Nat) : List (Loop D S) → List (Loop D S) → D → Cost
  | [], _, _ => idle
  | l :: ls, res, uq =>
    match flatMapM (addDisjoint o fuel) (sepPieces o res uq l) with
    | none => idle
    | some res' => sepStepC o fuel res uq l + sepLoopC fuel ls res' (o.union uq l.dom)

/-- source/loop.c:933-1029: `combine`, the first loop of `res` (940), and the old list (1029). -/
def separateC (fuel : Nat) (ls : List (Loop D S)) : Cost :=
  combineC o ls +
  match combine o ls with
  | [] => idle
  | [l] => disjointC o fuel [l]
  | l :: ls' => alloc 1 + sepLoopC o fuel ls' [.mk l.dom false none l.block l.inner] l.dom + free (ls'.length + 1)

/-- source/loop.c:1099-1114. -/
def mergeSplitC (opt : Options) (temp : D) (inner : List (Loop D S)) : Nat → D → Cost
  | 0, _ => idle
  | fuel + 1, splitter =>
    if o.isConvex splitter then
      if o.isEmpty (boundingDomain o opt (o.inter splitter temp)) then free (sizes inner) else alloc 1
    else
      (if o.isEmpty (boundingDomain o opt (o.inter (o.cutFirst splitter).1 temp)) then idle
        else alloc (sizes inner) + alloc 1) +
      mergeSplitC opt temp inner fuel (o.cutFirst splitter).2

/-- source/loop.c:1053-1124; 1116 and 1121. -/
def mergeC (fuel : Nat) (level : Nat) (opt : Options) : List (Loop D S) → Cost
  | [] => idle
  | l :: ls =>
    if ls.isEmpty ∧ o.isConvex l.dom then idle
    else
      let temp := unionDom o l.dom ls
      let nd := boundingDomain o opt temp
      (if 0 < level ∧ o.isBounded nd level = false ∧ o.isBounded temp level = true then
        mergeSplitC o opt temp ((l :: ls).flatMap Loop.inner) fuel (o.boundSplitter temp level)
      else alloc 1) + free (ls.length + 1)

/-- source/loop.c:1216-1242: `p`, the old loop, `temp`, one loop for each projection, and `p` again. -/
def nestOneC (ctx : D) (level : Nat) (l : Loop D S) : Cost :=
  restrictC o l ctx +
  match restrict o l ctx with
  | none => free (size l)
  | some p => free 1 + alloc 1 + alloc (o.dim p.dom + 1 - level) + free 1

/-- source/loop.c:1206-1248. -/
def nestC (fuel : Nat) (ls : List (Loop D S)) (ctx : D) (level : Nat) : Cost :=
  disjointC o fuel ls +
  match disjoint o fuel ls with
  | none => idle
  | some ds => total (nestOneC o ctx level) ds

/-- source/loop.c:1674-1676. -/
def constantC : List (Loop D S) → Cost
  | [] => idle
  | _ :: ls => alloc 1 + free (ls.length + 1)

/-- source/loop.c:1710-1725. -/
def unrollOneC (level : Nat) (l : Loop D S) : Cost :=
  match o.canUnroll l.dom level with
  | none => idle
  | some (n, lb) =>
    total (fun i : Nat =>
      alloc (sizes l.inner) + restrictAllC o l.inner (o.fixedOffset l.dom level lb i) +
      if (restrictAll o l.inner (o.fixedOffset l.dom level lb i)).isEmpty then idle else alloc 1) (List.range n.toNat) +
    free (size l)

/-- source/loop.c:2565: a new loop for each component but the first. -/
def decomposeOneC (level scalar : Nat) (scaldims : List Nat) (l : Loop D S) : Cost :=
  if l.inner.length ≤ 1 then idle
  else
    match componentsOf (fun a b => follows o a b level scalar scaldims) l.inner with
    | none => idle
    | some cs => alloc (cs.length - 1)

/-- source/loop.c:847-874. -/
def specializeC (level scalar : Nat) (scaldims : List Nat) (ls : List (Loop D S)) : Cost :=
  total (decomposeOneC o level scalar scaldims) ls +
  match decomposeInner o level scalar scaldims ls with
  | none => idle
  | some ds => removeEmptyC o (ds.map (specializeOne o))

/-- source/loop.c:1572-1582: the inner loops of a loop with a block are not looked at. -/
def backtrackOneC (i : Loop D S) : Cost :=
  match i.block with
  | some _ => alloc 2 + free 1 + lose (sizes i.inner)
  | none => projectC + free 1

/-- source/loop.c:1564-1601. -/
def backtrackLoopC (fuel level : Nat) (l : Loop D S) : Cost :=
  total backtrackOneC l.inner +
  (if l.inner.isEmpty then idle else separateC o fuel (l.inner.map (backtrackOne o level l.dom))) + free 1

/-- source/loop.c:1797-1820. -/
def recurseInnerC (genC : List (Loop D S) → Cost) (level scalar nbScatt : Nat) : Nat → List (Loop D S) → Cost
  | _, [] => idle
  | 0, _ :: _ => idle
  | n + 1, l :: ls =>
    if more o l level scalar nbScatt then
      genC (spanMore o level scalar nbScatt (l :: ls)).1 +
        recurseInnerC genC level scalar nbScatt n (spanMore o level scalar nbScatt (l :: ls)).2
    else recurseInnerC genC level scalar nbScatt n ls

/-- source/loop.c:1793-1825. -/
def recurseBelowC (c : Ctx) (genC : List (Loop D S) → D → Nat → Nat → Cost) (level scalar : Nat) (l : Loop D S) : Cost :=
  let l := if 0 < level ∧ c.opt.otl = true then loopOtl o level l else l
  let d := match l.stride with
    | none => l.dom
    | some s => o.addStride l.dom s
  recurseInnerC o (fun ls => genC ls d (level + 1) scalar) (level + 1) scalar c.scaldims.length l.inner.length l.inner

/-- source/loop.c:1782-1788. -/
def recursePrepareC (c : Ctx) (constant : Bool) (level scalar : Nat) (l : Loop D S) : Cost :=
  let l := if 0 < level ∧ c.opt.strides = true ∧ constant = false then loopStride o level l else l
  if constant = false ∧ 0 ≤ c.opt.firstUnroll ∧ c.opt.firstUnroll ≤ level + scalar then unrollOneC o level l else idle

/-- source/loop.c:1774-1826. -/
def loopRecurseC (c : Ctx) (genC : List (Loop D S) → D → Nat → Nat → Cost) (constant : Bool) (level scalar : Nat)
    (l : Loop D S) : Cost :=
  recursePrepareC o c constant level scalar l +
  match recursePrepare o c constant level scalar l with
  | none => idle
  | some (.inl m) => recurseBelowC o c genC level scalar m
  | some (.inr ms) => total (recurseBelowC o c genC level scalar) ms

/-- source/loop.c:1979-1984. -/
def nestBelowC (fuel level : Nat) (l : Loop D S) : Cost := nestC o fuel l.inner l.dom (level + 1) + alloc 1 + free 1

/-- source/loop.c:1954-1963. -/
def step3C (fuel : Nat) (c : Ctx) (level scalar : Nat) (first : Int) (ls : List (Loop D S)) : Cost :=
  if 0 < level ∧ isConstant o level ls = true then constantC ls
  else if first > level + scalar ∨ first < 0 then mergeC o fuel level c.opt ls
  else separateC o fuel ls

/-- source/loop.c:1965-1971. -/
def step3bC (c : Ctx) (level scalar : Nat) (separated : Bool) (ls : List (Loop D S)) : Cost :=
  match sort o level ls with
  | none => idle
  | some r => restrictInnerC o r + if separated then specializeC o level scalar c.scaldims (restrictInner o r) else idle

/-- source/loop.c:1973-1991. -/
def step4C (fuel : Nat) (c : Ctx) (genC : List (Loop D S) → D → Nat → Nat → Cost) (level scalar : Nat) (last : Int)
    (constant : Bool) (ls : List (Loop D S)) : Cost :=
  if level = 0 ∨ (level + scalar : Int) < last ∨ last < 0 then total (loopRecurseC o c genC constant level scalar) ls
  else total (nestBelowC o fuel level) ls

/-- source/loop.c:1990-2002. -/
def step5C (fuel : Nat) (c : Ctx) (level scalar : Nat) (first last : Int) (ls : List (Loop D S)) : Cost :=
  let ls := if c.opt.strides then propagate o ls else ls
  if c.opt.backtrack = true ∧ 0 < level ∧ ((level + scalar : Int) < last ∨ last < 0) ∧
      (first ≤ level + scalar ∧ ¬ first < 0) then total (backtrackLoopC o fuel level) ls
  else idle

/-- source/loop.c:1929-2012. -/
def generateGeneralC (fuel : Nat) (c : Ctx) (gen : List (Loop D S) → D → Nat → Nat → Option (List (Loop D S)))
    (genC : List (Loop D S) → D → Nat → Nat → Cost) (level scalar : Nat) (ls : List (Loop D S)) : Cost :=
  let fl := levels c.opt ls
  step3C o fuel c level scalar fl.1 ls +
  match step3 o fuel c level scalar fl.1 ls with
  | none => idle
  | some (r3, separated, constant) =>
    step3bC o c level scalar separated r3 +
    match step3b o c level scalar separated r3 with
    | none => idle
    | some r3b =>
      step4C o fuel c genC level scalar fl.2 constant r3b +
      match step4 o fuel c gen level scalar fl.2 constant r3b with
      | none => idle
      | some r4 => step5C o fuel c level scalar fl.1 fl.2 r4

/-- source/loop.c:2462-2512. -/
def generateComponentsC (fuel : Nat) (c : Ctx) (gen : List (Loop D S) → D → Nat → Nat → Option (List (Loop D S)))
    (genC : List (Loop D S) → D → Nat → Nat → Cost) (level scalar : Nat) (ls : List (Loop D S)) : Cost :=
  if level = 0 ∨ ls.length ≤ 1 then generateGeneralC o fuel c gen genC level scalar ls
  else
    match componentsOf (fun a b => innerFollows o a b level scalar c.scaldims) ls with
    | none => idle
    | some cs =>
      total (generateGeneralC o fuel c gen genC level scalar) cs +
      match flatMapM (generateGeneral o fuel c gen level scalar) cs with
      | none => idle
      | some r => combineC o r

/-- source/loop.c:2050-2080: loops of the group of a terminal loop are lost if something is added after them. -/
def scalarLoopC (c : Ctx) (gen : List (Loop D S) → Option (List (Loop D S))) (genC : List (Loop D S) → Cost)
    (level scalar scalarNew : Nat) : Nat → List (Loop D S) → Cost
  | _, [] => idle
  | 0, _ :: _ => idle
  | n + 1, l :: ls =>
    scalarLoopC c gen genC level scalar scalarNew n (scalarGroup o c level scalar scalarNew l ls).2 +
    if more o l level scalarNew c.scaldims.length then genC (l :: (scalarGroup o c level scalar scalarNew l ls).1)
    else
      match scalarLoop o c gen level scalar scalarNew n (scalarGroup o c level scalar scalarNew l ls).2 with
      | some (_ :: _) => lose (sizes (scalarGroup o c level scalar scalarNew l ls).1)
      | _ => idle

/-- source/loop.c:2039-2083. -/
def generateScalarC (c : Ctx) (gen : List (Loop D S) → Nat → Option (List (Loop D S)))
    (genC : List (Loop D S) → Nat → Cost) (level scalar : Nat) (ls : List (Loop D S)) : Cost :=
  let gt := fun a b : Loop D S => ScalarSort.scalarGt o.icmp level (isScal c.scaldims) scalar (scalOf a) (scalOf b)
  let scalarNew := scalar + runLength c.scaldims (level + scalar - 1)
  match ScalarSort.bubble gt (ls.length * ls.length + 1) ls with
  | none => idle
  | some s => scalarLoopC o c (fun g => gen g scalarNew) (fun g => genC g scalarNew) level scalar scalarNew s.length s

/-- source/loop.c:2580-2613. `-stop` allocates and frees no loops (source/loop.c:1400-1410). -/
def generateRestrictedC (c : Ctx) : Nat → Bool → List (Loop D S) → D → Nat → Nat → Cost
  | 0, _, _, _, _, _ => idle
  | fuel + 1, orStop, ls, ctx, level, scalar =>
    if orStop = true ∧ 0 ≤ c.opt.stop ∧ c.opt.stop + 1 ≤ level + scalar then idle
    else if ScalarSort.levelIsConstant level scalar (isScal c.scaldims) then
      generateScalarC o c (fun g sc => generateRestricted o c fuel false g ctx level sc)
        (fun g sc => generateRestrictedC c fuel false g ctx level sc) level scalar ls
    else
      projectAllC ls +
      generateComponentsC o fuel c (fun g d lev sc => generateRestricted o c fuel true g d lev sc)
        (fun g d lev sc => generateRestrictedC c fuel true g d lev sc) level scalar (projectAll o ls level)

/-- source/loop.c:2642-2654. -/
def generateC (c : Ctx) (fuel : Nat) (ls : List (Loop D S)) (ctx : D) (level scalar : Nat) : Cost :=
  restrictAllC o ls ctx +
  if (restrictAll o ls ctx).isEmpty then idle else generateRestrictedC o c fuel true (restrictAll o ls ctx) ctx level scalar

/-- source/loop.c:2743-2757. -/
def simplifyPrepareC (fuel : Nat) (ls : List (Loop D S)) : Cost :=
  let ls' := ls.map (fun l => if o.isConvex l.dom then l else l.setDom (o.simplifyUnion l.dom))
  if ls'.all (fun l => o.isConvex l.dom) then idle else disjointC o fuel ls'

/-- source/loop.c:2679 and 2696. -/
def loopSimplifyC (simp : List (Loop D S) → D → Option (List (Loop D S))) (simpC : List (Loop D S) → D → Cost)
    (l : Loop D S) (ctx : D) : Cost :=
  let ext := o.extend ctx (o.dim l.dom)
  if o.neverIntegral (o.gist l.dom ext) then free (sizes l.inner)
  else
    simpC l.inner (o.inter l.dom ext) +
    match simp l.inner (o.inter l.dom ext) with
    | none => idle
    | some inner => if inner.isEmpty = true ∧ l.block = none then idle else alloc 1

/-- source/loop.c:2735-2770; the old list is freed at 2767, when the loops have no inner loops any more. -/
def simplifyC : Nat → List (Loop D S) → D → Cost
  | 0, _, _ => idle
  | fuel + 1, ls, ctx =>
    simplifyPrepareC o fuel ls +
    match simplifyPrepare o fuel ls with
    | none => idle
    | some ds => total (fun l => loopSimplifyC o (simplify o fuel) (simplifyC fuel) l ctx) ds + free ds.length

/-- source/program.c:1083-1106 of `cloog_program_generate`, and `cloog_loop_free` on the result in `cloog_program_free`
(source/program.c:811-820): the calls between the construction of the loops `ls` and the end of `main`. -/
def programC (c : Ctx) (simp : Bool) (fuel : Nat) (ls : List (Loop D S)) (ctx : D) : Cost :=
  generateC o c fuel ls ctx 0 0 +
  match generate o c fuel ls ctx 0 0 with
  | none => idle
  | some t =>
    if simp then
      simplifyC o fuel t ctx +
      match simplify o fuel t ctx with
      | none => idle
      | some t' => free (sizes t')
    else free (sizes t)

end Verif.LoopCount
