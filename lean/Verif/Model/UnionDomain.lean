import Verif.Model.Names
import Verif.Model.Program

/-!
# Union domains and the program made from one

Model of source/union_domain.c:28-152 and of `cloog_program_alloc` (source/program.c:844-955).
Allocation failures are not modelled.  Domains `D`, scatterings `S` and user data `U` are abstract.
-/

namespace Verif.UnionDomain
open Verif.Names Verif.Program

variable {D S U : Type}

/-- `enum cloog_dim_type` (include/cloog/union_domain.h:12). -/
inductive Ty
  | param
  | iter
  | scat
  deriving DecidableEq, Repr

/-- The messages of `cloog_die` (source/union_domain.c:91, 93, 133, 136; source/program.c:1381, 1320). -/
inductive Err
  | iterNamesFirst
  | scatNamesFirst
  | badType
  | range
  | scatDims
  | notScalar
  deriving DecidableEq, Repr

/-- `struct cloognameddomainlist` (include/cloog/union_domain.h:14-24), a node. -/
structure Named (D S U : Type) where
  name : Option CStr
  dom : D
  scat : Option S
  usr : U

/-- `struct cloogunion_domain` (include/cloog/union_domain.h:26-34).  The list of domains is in order;
    the pointer to its end is not kept. -/
structure UD (D S U : Type) where
  n : Ty → Nat
  names : Ty → Option (List (Option CStr))
  domains : List (Named D S U)

/-- `cloog_union_domain_alloc` (source/union_domain.c:28-48). -/
def alloc (nbPar : Nat) : UD D S U where
  n := fun t => match t with
    | .param => nbPar
    | _ => 0
  names := fun _ => none
  domains := []

/-- The two updates of `n_name` (source/union_domain.c:95-103): `dim` is `cloog_domain_dimension`, `sdim`
    is `cloog_scattering_dimension` (isl: the number of output dimensions of the map). -/
def grow (dim : D → Nat) (sdim : S → Nat) (a : Named D S U) (n : Ty → Nat) : Ty → Nat
  | .param => n .param
  | .iter => if dim a.dom > n .iter then dim a.dom else n .iter
  | .scat =>
    match a.scat with
    | some s => if sdim s > n .scat then sdim s else n .scat
    | none => n .scat

/-- `cloog_union_domain_add_domain` (source/union_domain.c:77-116). -/
def addDomain (dim : D → Nat) (sdim : S → Nat) (a : Named D S U) (ud : UD D S U) :
    Except Err (UD D S U) :=
  if (ud.names .iter).isSome then .error .iterNamesFirst
  else if (ud.names .scat).isSome then .error .scatNamesFirst
  else .ok { ud with n := grow dim sdim a ud.n, domains := ud.domains ++ [a] }

/-- `cloog_union_domain_set_name` (source/union_domain.c:122-152); `none`: a type that is none of the
    three. -/
def setName (ty : Option Ty) (i : Int) (name : CStr) (ud : UD D S U) : Except Err (UD D S U) :=
  match ty with
  | none => .error .badType
  | some t =>
    if i < 0 ∨ (ud.n t : Int) ≤ i then .error .range
    else
      let old := (ud.names t).getD (List.replicate (ud.n t) none)
      .ok { ud with names := fun t' => if t' = t then some (old.set i.toNat (some name)) else ud.names t' }

/-- A call of the interface. -/
inductive Call (D S U : Type)
  | add (a : Named D S U)
  | setName (ty : Option Ty) (i : Int) (name : CStr)

/-- One call. -/
def step (dim : D → Nat) (sdim : S → Nat) (ud : UD D S U) : Call D S U → Except Err (UD D S U)
  | .add a => addDomain dim sdim a ud
  | .setName ty i name => setName ty i name ud

/-- A sequence of calls; the first error ends the program. -/
def run (dim : D → Nat) (sdim : S → Nat) : List (Call D S U) → UD D S U → Except Err (UD D S U)
  | [], ud => .ok ud
  | c :: cs, ud =>
    match step dim sdim ud c with
    | .ok ud' => run dim sdim cs ud'
    | .error e => .error e

/-! ## The program -/

/-- A loop of the program with its only statement (source/program.c:888-893,
    `cloog_loop_from_domain`, source/loop.c:324-345): number, name, user data, depth of the block. -/
structure PLoop (D U : Type) where
  dom : D
  number : Nat
  name : Option CStr
  usr : U
  depth : Nat

/-- The loops made from the domains, the first being number `i` (source/program.c:888-906). -/
def makeLoops (dim : D → Nat) : Nat → List (Named D S U) → List (PLoop D U)
  | _, [] => []
  | i, a :: as => ⟨a.dom, i + 1, a.name, a.usr, dim a.dom⟩ :: makeLoops dim (i + 1) as

/-- The scattering list (source/program.c:895-902). -/
def makeScats (as : List (Named D S U)) : List S := as.filterMap Named.scat

/-- The name lists of the program before `cloog_names_scalarize` (source/program.c:865-881, 908-916):
    those of the union domain or default ones.  Scattering names only count if there is a scattering. -/
def makeNames (sdim : S → Nat) (ud : UD D S U) : Ty → List (Option CStr)
  | .param => (ud.names .param).getD ((generateItems (ud.n .param) none firstParameter).map some)
  | .iter => (ud.names .iter).getD ((generateItems (ud.n .iter) none firstIterator).map some)
  | .scat =>
    match makeScats ud.domains with
    | [] => []
    | s :: _ => (ud.names .scat).getD ((generateItems (sdim s) (some [99]) (-1)).map some)

/-- The main loop of `cloog_program_scatter` (source/program.c:1378-1390): the k-th loop gets the k-th
    scattering; loops without a scattering are left alone (with a warning, not modelled). -/
def scatterGo (o : Ops D S) (n : Nat) : List D → List S → Except Err (List D)
  | d :: ds, s :: ss =>
    if o.nScat s ≠ n then .error .scatDims
    else
      match scatterGo o n ds ss with
      | .ok r => .ok (o.scatter d s :: r)
      | .error e => .error e
  | ds, _ => .ok ds

/-- `cloog_program_scatter` (source/program.c:1357-1400): all scatterings have as many dimensions as the
    first. -/
def scatterAll (o : Ops D S) (ds : List D) (ss : List S) : Except Err (List D) :=
  match ss with
  | [] => .ok ds
  | s :: _ => scatterGo o (o.nScat s) ds ss

/-- Result of building the loop list. -/
inductive Built (α : Type)
  | ok (a : α)
  | die (e : Err)
  /-- a null pointer is read -/
  | crash

/-- Put scatterings, scalar values and statements together again after scalar extraction. -/
def assemble (o : Ops D S) (blocks : List (Item D S)) (rs : List (List Int × S)) :
    Except Err (List (SItem D)) :=
  match scatterAll o (blocks.map Item.dom) (rs.map Prod.snd) with
  | .error e => .error e
  | .ok ds => .ok (List.zipWith (fun (p : D × List Int) b => ⟨p.1, p.2, b⟩)
      (ds.zip (rs.map Prod.fst)) (blocks.map Item.stmts))

/-- source/program.c:924-936 when every loop has a scattering: blocking, scalar extraction, scattering
    and blocking again.  The result: `scaldims` and the loops. -/
def buildAligned (o : Ops D S) (noblocks noscalars : Bool) (n : Nat) (items : List (Item D S)) :
    Built (List Nat × List (SItem D)) :=
  let blocks := if noblocks then items else programBlock o items
  match (if noscalars then some (List.replicate n 0, blocks.map fun b => ([], b.scat))
      else extractScalars o n (blocks.map Item.scat)) with
  | none => .die .notScalar
  | some (sd, rs) =>
    match assemble o blocks rs with
    | .error e => .die e
    | .ok ls => .ok (sd, if noblocks then ls else loopBlock o (sd.any (· ≠ 0)) sd ls)

/-- source/program.c:924-936 when there are scatterings, but not for every loop: `cloog_program_block`
    reads `scatt_loop->next` with `scatt_loop` null (1213), and so does
    `cloog_program_extract_scalars` (1318-1324) if a dimension is scalar; otherwise the scatterings go
    to the first loops. -/
def buildShort (o : Ops D S) (noblocks noscalars : Bool) (n : Nat) (ds : List D) (ss : List S)
    (stmts : List (List Nat)) : Built (List Nat × List (SItem D)) :=
  if !noblocks then .crash
  else if !noscalars && (scalarFlags o n ss).any id then .crash
  else
    match scatterAll o ds ss with
    | .error e => .die e
    | .ok ds' => .ok (List.replicate n 0, List.zipWith (fun d b => ⟨d, [], b⟩) ds' stmts)

/-- The loop list built by `cloog_program_alloc` (source/program.c:883-940). -/
def programLoops (o : Ops D S) (dim : D → Nat) (noblocks noscalars : Bool) (ud : UD D S U) :
    Built (List Nat × List (SItem D)) :=
  let ls := makeLoops dim 0 ud.domains
  let stmts := ls.map fun l => [l.number]
  match makeScats ud.domains with
  | [] => .ok ([], List.zipWith (fun l b => ⟨l.dom, [], b⟩) ls stmts)
  | s :: ss =>
    if (s :: ss).length = ls.length then
      buildAligned o noblocks noscalars (o.nScat s)
        (List.zipWith (fun (l : PLoop D U) t => ⟨l.dom, t, [l.number]⟩) ls (s :: ss))
    else buildShort o noblocks noscalars (o.nScat s) (ls.map PLoop.dom) (s :: ss) stmts

end Verif.UnionDomain
