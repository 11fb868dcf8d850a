import Verif.Model.ImportSet

/-!
# Union domains made from isl union maps

Model of `add_domain_from_map` and `cloog_union_domain_from_isl_union_map`
(source/isl/domain.c:1583-1639).  A union map is given by the names of its parameters and the list of its
maps, in the order in which `isl_union_map_foreach_map` visits them; a map has the name of its input
space, if any.  Parameters always have a name.  The map itself is the scattering; `domOf` is
`isl_map_domain`.  Allocation failures and the release of the isl objects are not modelled.
-/

namespace Verif.ImportMap
open Verif.Names Verif.UnionDomain Verif.ImportSet

variable {D S U : Type}

/-- `add_domain_from_map` (source/isl/domain.c:1583-1599): the node added for a map; `null` is the user
    pointer given, NULL. -/
def node (domOf : S → D) (null : U) (m : Option CStr × S) : Named D S U :=
  ⟨m.1, domOf m.2, some m.2, null⟩

/-- The calls made by `cloog_union_domain_from_isl_union_map` (source/isl/domain.c:1611-1639) on the union
    domain allocated with the number of parameters. -/
def mapCalls (domOf : S → D) (null : U) (params : List CStr) (maps : List (Option CStr × S)) :
    List (Call D S U) :=
  nameCalls .param params ++ maps.map fun m => .add (node domOf null m)

end Verif.ImportMap
