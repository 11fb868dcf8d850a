/-!
# From statements and scatterings to the loop list

Model of `cloog_program_block`, `cloog_program_extract_scalars`, `cloog_program_scatter`
(source/program.c), `cloog_scattering_lazy_block` (source/isl/domain.c) and `cloog_loop_block`
(source/loop.c).  Domains and scatterings are abstract; the isl questions asked about them are
parameters (`Ops`).
-/

namespace Verif.Program

/-- The questions and operations on domains `D` and scatterings `S` implemented with isl. -/
structure Ops (D S : Type) where
  /-- `cloog_domain_lazy_equal` (source/isl/domain.c:1140). -/
  lazyEqual : D → D → Bool
  /-- `isl_map_dim (map, isl_dim_out)` (source/isl/domain.c:1286). -/
  nScat : S → Nat
  /-- `isl_set_plain_get_val_if_fixed` on the differences of two scatterings, the second minus the first
      (source/isl/domain.c:1290-1298); `none` when no fixed value is found. -/
  fixedDelta : S → S → Nat → Option Int
  /-- `injective_scattering` (source/isl/domain.c:1226-1254). -/
  injective : List S → Bool
  /-- `cloog_scattering_lazy_isscalar` with the value (source/isl/domain.c:1439-1459). -/
  isScalar : S → Nat → Option Int
  /-- `cloog_scattering_erase_dimension` (source/isl/domain.c:1497-1503). -/
  erase : S → Nat → S
  /-- `cloog_domain_scatter`, called by `cloog_loop_scatter` (source/loop.c:2777). -/
  scatter : D → S → D
  /-- `cloog_domain_lazy_isconstant` (source/isl/domain.c:1468-1488). -/
  isConst : D → Nat → Bool

variable {D S : Type} (o : Ops D S)

/-- The loop of `cloog_scattering_lazy_block` (source/isl/domain.c:1297-1322) from dimension `i`, with
    `fuel` dimensions left. -/
def lazyBlockGo (s1 s2 : S) (all : List S) (n : Nat) : Nat → Nat → Bool
  | _, 0 => true
  | i, fuel + 1 =>
    match o.fixedDelta s1 s2 i with
    | none => false
    | some c =>
      if c = 0 then lazyBlockGo s1 s2 all n (i + 1) fuel
      else if i + 1 < n then false
      else if c ≠ 1 then false
      else if !o.injective all then false
      else lazyBlockGo s1 s2 all n (i + 1) fuel

/-- `cloog_scattering_lazy_block` (source/isl/domain.c:1271-1325). -/
def lazyBlock (s1 s2 : S) (all : List S) : Bool :=
  if o.nScat s1 ≠ o.nScat s2 then false else lazyBlockGo o s1 s2 all (o.nScat s1) 0 (o.nScat s1)

/-- A loop of the list with its scattering and the statements of its block. -/
structure Item (D S : Type) where
  dom : D
  scat : S
  stmts : List Nat

/-- The loop of `cloog_program_block` (source/program.c:1169-1226).  `done`: the finished blocks, last
    first; `start`: the block being filled; `rd`, `rs`: domain and scattering of the reference node;
    the last argument: the nodes not looked at.  The scattering list the injectivity test sees is the
    linked list at that moment: finished blocks, the start, and the nodes not looked at.  The lists of
    loops and of scatterings have the same length (see `Verif.UnionDomain` for the other case). -/
def blockGo (done : List (Item D S)) (start : Item D S) (rd : D) (rs : S) :
    List (Item D S) → List (Item D S)
  | [] => (start :: done).reverse
  | l :: rest =>
    if o.lazyEqual rd l.dom && lazyBlock o rs l.scat
        (((start :: done).reverse ++ l :: rest).map Item.scat) then
      blockGo done { start with stmts := start.stmts ++ l.stmts } l.dom l.scat rest
    else blockGo (start :: done) l l.dom l.scat rest

/-- `cloog_program_block` (source/program.c:1142-1241). -/
def programBlock : List (Item D S) → List (Item D S)
  | [] => []
  | start :: rest => blockGo o [] start start.dom start.scat rest

/-! ## Scalar dimensions -/

/-- The first loop of `cloog_program_extract_scalars` (source/program.c:1268-1283): which dimensions are
    scalar for all scatterings. -/
def scalarFlags (n : Nat) (ss : List S) : List Bool :=
  (List.range n).map fun i => ss.all fun s => (o.isScalar s i).isSome

/-- One turn of the loop at source/program.c:1309-1326 for one statement: read the value and erase the
    dimension; `none`: `cloog_die`. -/
def takeScalar (i : Nat) (s : S) : Option (Int × S) :=
  (o.isScalar s i).map fun v => (v, o.erase s i)

/-- The loop at source/program.c:1305-1328 for one statement: the dimensions from the last to the first;
    the values are stored from the last position to the first.  `i` dimensions are left.  In the code
    the loop over the statements is inside the loop over the dimensions; each statement is treated on
    its own, so the loops can be exchanged (the order only matters for which dimension an error message
    names). -/
def extractOne (flags : List Bool) : Nat → S → List Int → Option (List Int × S)
  | 0, s, vs => some (vs, s)
  | i + 1, s, vs =>
    if flags[i]?.getD false then
      match takeScalar o i s with
      | none => none
      | some (v, s') => extractOne flags i s' (v :: vs)
    else extractOne flags i s vs

/-- The loop at source/program.c:1334-1342: each non-zero entry becomes the length of the run of scalar
    dimensions starting there. -/
def runLengths : List Bool → List Nat
  | [] => []
  | false :: r => 0 :: runLengths r
  | true :: r => (1 + (r.takeWhile id).length) :: runLengths r

/-- `cloog_program_extract_scalars` (source/program.c:1258-1347): the final `scaldims` array and for each
    statement its scalar values and the reduced scattering. -/
def extractScalars (n : Nat) (ss : List S) : Option (List Nat × List (List Int × S)) :=
  let flags := scalarFlags o n ss
  if flags.any id then
    (ss.mapM fun s => extractOne o flags n s []).map fun r => (runLengths flags, r)
  else some (flags.map fun _ => 0, ss.map fun s => ([], s))

/-! ## Blocking after scattering -/

/-- A loop after scattering: domain, scalar values of its block, statements. -/
structure SItem (D : Type) where
  dom : D
  scal : List Int
  stmts : List Nat

/-- `cloog_loop_next_scal_cmp` (source/loop.c:2093-2112); the values are compared with
    `cloog_int_cmp` as mathematical integers.  `none`: no next loop. -/
def scalCmp : List Int → List Int → Int
  | [], [] => 0
  | [], _ :: _ => -1
  | _ :: _, [] => 1
  | a :: as, b :: bs => if a < b then -1 else if b < a then 1 else scalCmp as bs

/-- `cloog_loop_next_scal_cmp (loop) < 0` for a loop followed by `rest` (source/loop.c:2098-2099). -/
def lastOrLess (a : SItem D) : List (SItem D) → Bool
  | [] => true
  | b :: _ => decide (scalCmp a.scal b.scal < 0)

/-- The two loops of `cloog_loop_equal_prefix` (source/loop.c:2126-2146).  The list: the rest of
    `scaldims`; `d`: the current non-scalar dimension; `diff`: a difference was found. -/
def equalPrefixGo (dom : D) : List Nat → List Int → List Int → Nat → Bool → Bool
  | [], _, _, _, _ => true
  | f :: fs, as, bs, d, false =>
    if f = 0 then equalPrefixGo dom fs as bs (d + 1) false
    else if as.head? = bs.head? then equalPrefixGo dom fs as.tail bs.tail d false
    else equalPrefixGo dom fs as bs d true
  | f :: fs, as, bs, d, true =>
    if f ≠ 0 then equalPrefixGo dom fs as bs d true
    else if !o.isConst dom d then false
    else equalPrefixGo dom fs as bs (d + 1) true

/-- `cloog_loop_equal_prefix` (source/loop.c:2119-2147). -/
def equalPrefix (scaldims : List Nat) (a b : SItem D) : Bool :=
  equalPrefixGo o a.dom scaldims a.scal b.scal 0 false

/-- The search for the end of the sublist (source/loop.c:2190-2197): the candidates that pass, those
    after them, and `end_after_previous`. -/
def findEnd (scaldims : List Nat) (begin : SItem D) (after : Bool) :
    List (SItem D) → List (SItem D) × List (SItem D) × Bool
  | [] => ([], [], after)
  | e :: rest =>
    if equalPrefix o scaldims begin e && o.lazyEqual begin.dom e.dom then
      let (g, r, a) := findEnd scaldims begin (lastOrLess e rest) rest
      (e :: g, r, a)
    else ([], e :: rest, after)

/-- The main loop of `cloog_loop_block` (source/loop.c:2183-2207); `fuel` bounds the list length. -/
def loopBlockGo (scaldims : List Nat) : Nat → Bool → List (SItem D) → List (SItem D)
  | 0, _, ls => ls
  | _, _, [] => []
  | fuel + 1, false, b :: rest => b :: loopBlockGo scaldims fuel (lastOrLess b rest) rest
  | fuel + 1, true, b :: rest =>
    let (g, r, a) := findEnd o scaldims b (lastOrLess b rest) rest
    if !g.isEmpty && a then
      { b with stmts := b.stmts ++ g.flatMap SItem.stmts } ::
        loopBlockGo scaldims fuel (lastOrLess b r) r
    else b :: loopBlockGo scaldims fuel (lastOrLess b rest) rest

/-- No loop is followed by one with smaller scalar values (source/loop.c:2179-2180). -/
def nondecreasing : List (SItem D) → Bool
  | [] => true
  | [_] => true
  | a :: b :: rest => decide (scalCmp a.scal b.scal ≤ 0) && nondecreasing (b :: rest)

/-- `cloog_loop_block` (source/loop.c:2168-2210).  `hasScal`: the blocks have a `scaldims` array (the
    test at 2177; all have one or none has one, source/program.c:1286-1298). -/
def loopBlock (hasScal : Bool) (scaldims : List Nat) (ls : List (SItem D)) : List (SItem D) :=
  if ls.length ≤ 1 then ls
  else if !hasScal then ls
  else if !nondecreasing ls then ls
  else loopBlockGo o scaldims ls.length true ls

end Verif.Program
