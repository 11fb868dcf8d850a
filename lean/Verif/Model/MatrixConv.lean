/-!
# Domains and scatterings from matrices (`source/isl/domain.c:521-657`, `1505-1564`)

isl objects are modelled by their constraints.  `cloog_int_to_isl_val` is exact.  Reading a row beyond its end is
undefined behaviour (`none`).
-/

namespace Verif.MatrixConv

/-- An `isl_space`: the numbers of parameters, input and output dimensions.  A set has its dimensions as output
    dimensions: in `isl/space_type.h` the constant `isl_dim_set` is `isl_dim_out`. -/
structure Space where
  par : Nat
  inn : Nat
  out : Nat
deriving DecidableEq, Repr

/-- An `isl_constraint` without existentially quantified variables: the coefficients of each kind of dimension. -/
structure Row where
  eq : Bool
  inn : List Int
  out : List Int
  par : List Int
  cst : Int
deriving DecidableEq, Repr

/-- `isl_constraint_read_from_matrix` (`source/isl/domain.c:529-557`): `nvariables` is the number of output dimensions;
    the other coefficients of a fresh constraint are zero. -/
def constraintFromRow (sp : Space) (row : List Int) : Option Row :=
  match row[0]?, (List.range sp.out).mapM (fun j => row[1 + j]?),
      (List.range sp.par).mapM (fun j => row[1 + sp.out + j]?), row[1 + sp.out + sp.par]? with
  | some t, some out, some par, some c => some ⟨decide (t = 0), List.replicate sp.inn 0, out, par, c⟩
  | _, _, _, _ => none

/-- An `isl_basic_map` (or set, without input dimensions): its space and constraints. -/
structure Rel where
  space : Space
  rows : List Row
deriving DecidableEq, Repr

/-- `isl_basic_set_read_from_matrix` (`source/isl/domain.c:564-590`), with `ncols` the field `NbColumns`; `none` also if
    the number of variables is negative. -/
def basicSetFromMatrix (ncols : Nat) (m : List (List Int)) (nparam : Nat) : Option Rel :=
  if ncols < 2 + nparam then none
  else (m.mapM (constraintFromRow ⟨nparam, 0, ncols - 2 - nparam⟩)).map (fun rs => ⟨⟨nparam, 0, ncols - 2 - nparam⟩, rs⟩)

/-- `isl_basic_map_read_from_matrix` (`source/isl/domain.c:597-623`). -/
def basicMapFromMatrix (ncols : Nat) (m : List (List Int)) (nparam nin : Nat) : Option Rel :=
  if ncols < 2 + nparam + nin then none
  else (m.mapM (constraintFromRow ⟨nparam, nin, ncols - 2 - nparam - nin⟩)).map
    (fun rs => ⟨⟨nparam, nin, ncols - 2 - nparam - nin⟩, rs⟩)

/-- `isl_basic_map_reverse`: exchange input and output. -/
def reverse (r : Rel) : Rel :=
  ⟨⟨r.space.par, r.space.out, r.space.inn⟩, r.rows.map (fun c => ⟨c.eq, c.out, c.inn, c.par, c.cst⟩)⟩

/-- `cloog_domain_from_cloog_matrix` (`source/isl/domain.c:631-640`). -/
def domainFromMatrix (ncols : Nat) (m : List (List Int)) (nparam : Nat) : Option Rel := basicSetFromMatrix ncols m nparam

/-- `cloog_scattering_from_cloog_matrix` (`source/isl/domain.c:648-657`): a relation from iterators to dates. -/
def scatteringFromMatrix (ncols : Nat) (m : List (List Int)) (nbScat nbPar : Nat) : Option Rel :=
  (basicMapFromMatrix ncols m nbPar nbScat).map reverse

/-- `isl_set_lower_bound_val` and `isl_set_upper_bound_val` for one dimension of a set without parameters, as in the
    loops of `cloog_domain_cube` and `cloog_domain_from_bounds`. -/
def boundRows (n i : Nat) (lo hi : Int) : List Row :=
  [⟨false, [], (List.range n).map (fun j => if j = i then 1 else 0), [], -lo⟩,
   ⟨false, [], (List.range n).map (fun j => if j = i then -1 else 0), [], hi⟩]

/-- `cloog_domain_from_bounds` (`source/isl/domain.c:1539-1564`); `none`: the assertion on the sizes fails.  The case of
    no dimension is the same as the general one. -/
def domainFromBounds (lo hi : List Int) : Option Rel :=
  if lo.length = hi.length then
    some ⟨⟨0, 0, hi.length⟩, (List.range hi.length).flatMap (fun i => boundRows hi.length i (lo.getD i 0) (hi.getD i 0))⟩
  else none

/-- `cloog_domain_cube` (`source/isl/domain.c:1510-1532`). -/
def domainCube (n : Nat) (lo hi : Int) : Rel :=
  ⟨⟨0, 0, n⟩, (List.range n).flatMap (fun i => boundRows n i lo hi)⟩

end Verif.MatrixConv
