import Verif.Model.UnionDomain

/-!
# Union domains made from isl sets

Model of `count_same_name`, `add_domain` and `cloog_union_domain_from_isl_set`
(source/isl/domain.c:1641-1731).  The space of a set is given by the names of its parameters and of its
dimensions; a dimension without a name is `none`, parameters always have one.  Allocation failures are
not modelled.
-/

namespace Verif.ImportSet
open Verif.Names Verif.UnionDomain

/-- `!strncmp(n, name, strlen(name))` (source/isl/domain.c:1653): the first string starts with the
    second. -/
def startsWith : CStr → CStr → Bool
  | _, [] => true
  | [], _ :: _ => false
  | a :: n, b :: m => decide (a = b) && startsWith n m

/-- `count_same_name` for the dimension at `pos` of a set (source/isl/domain.c:1641-1658): how many
    parameters and earlier named dimensions have a name starting with `name`.  A set has no input
    dimensions. -/
def countSame (params : List CStr) (dims : List (Option CStr)) (pos : Nat) (name : CStr) : Nat :=
  (params.filter fun n => startsWith n name).length +
    ((dims.take pos).filter fun n =>
      match n with
      | some n => startsWith n name
      | none => false).length

/-- The name before counting (source/isl/domain.c:1681-1685): the one given, otherwise "i%d". -/
def baseName (i : Nat) (n : Option CStr) : CStr := n.getD (numName [105] i)

/-- `snprintf(long_name, strlen(name) + 10, "%s_%d", name, n)` (source/isl/domain.c:1688-1692): at most
    `strlen(name) + 9` characters are kept. -/
def longName (name : CStr) (n : Nat) : CStr := (numName (name ++ [95]) n).take (name.length + 9)

/-- The name given to dimension `i` (source/isl/domain.c:1681-1695). -/
def dimName (params : List CStr) (dims : List (Option CStr)) (i : Nat) (n : Option CStr) : CStr :=
  let name := baseName i n
  let c := countSame params dims i name
  if c = 0 then name else longName name c

/-- All iterator names given by `add_domain` (source/isl/domain.c:1677-1698). -/
def dimNames (params : List CStr) (dims : List (Option CStr)) : List CStr :=
  dims.mapIdx fun i n => dimName params dims i n

/-- `cloog_union_domain_set_name` for all names of one type, from the first to the last
    (source/isl/domain.c:1722-1725 and 1677-1698). -/
def nameCalls {D S U : Type} (t : Ty) (names : List CStr) : List (Call D S U) :=
  names.mapIdx fun i n => .setName (some t) (i : Int) n

/-- The calls made by `cloog_union_domain_from_isl_set` (source/isl/domain.c:1710-1731) on the union
    domain allocated with the number of parameters; `a` holds the statement name and the flattened
    set. -/
def importCalls {D S U : Type} (params : List CStr) (dims : List (Option CStr)) (a : Named D S U) :
    List (Call D S U) :=
  nameCalls .param params ++ [.add a] ++ nameCalls .iter (dimNames params dims)

end Verif.ImportSet
