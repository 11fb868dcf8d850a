import Verif.Model.Options

/-!
# Name tables

Model of source/names.c.  A `char` has 8 bits; character codes are natural numbers below 256.
-/

namespace Verif.Names

/-- A C string as a list of non-zero character codes. -/
abbrev CStr := List Nat

/-- `sprintf (s, "%c", code)` (source/names.c:415): the code is converted to `unsigned char`; the
    code zero ends the string. -/
def charName (code : Int) : CStr :=
  let c := (code % 256).toNat
  if c = 0 then [] else [c]

/-- Decimal digits of a natural number, most significant first (`%d`, source/names.c:417).  `fuel`
    bounds the number of digits. -/
def decDigits : Nat → Nat → CStr
  | 0, _ => []
  | fuel + 1, n => if n < 10 then [48 + n] else decDigits fuel (n / 10) ++ [48 + n % 10]

/-- `sprintf (s, "%s%d", prefix, n)` for a positive `n` (source/names.c:417). -/
def numName (pre : CStr) (n : Nat) : CStr := pre ++ decDigits (n + 1) n

/-- `cloog_names_generate_items` (source/names.c:399-421).  The null pointer returned for zero items
    is the empty list. -/
def generateItems (nb : Nat) (pre : Option CStr) (first : Int) : List CStr :=
  (List.range nb).map fun (i : Nat) =>
    match pre with
    | none => charName (first + (i : Int))
    | some p => numName p (1 + i)

/-- `FIRST_PARAMETER`, 'M' (include/cloog/names.h:47). -/
def firstParameter : Int := 77

/-- `FIRST_ITERATOR`, 'i' (include/cloog/names.h:48). -/
def firstIterator : Int := 105

/-- The fields of `CloogNames` (include/cloog/names.h:56-67); the counters are the lengths. -/
structure Table where
  scalars : List CStr
  scattering : List CStr
  iterators : List CStr
  parameters : List CStr
  deriving DecidableEq

/-- The default names chosen by `cloog_program_alloc` when the union domain has none
    (source/program.c:868-916): parameters from 'M', iterators from 'i', scattering dimensions
    "c1", "c2", ... -/
def defaultTable (nbPar nbIter nbScat : Nat) : Table where
  scalars := []
  scattering := generateItems nbScat (some [99]) (-1)
  iterators := generateItems nbIter none firstIterator
  parameters := generateItems nbPar none firstParameter

/-- The copying loop of `cloog_names_scalarize` (source/names.c:500-511): entry `i` of the old table
    goes to the scalar or to the scattering names. -/
def scalarizeGo : List Int → List CStr → List CStr × List CStr
  | s :: ss, n :: ns =>
    let (sc, scat) := scalarizeGo ss ns
    if s = 0 then (sc, n :: scat) else (n :: sc, scat)
  | _, _ => ([], [])

/-- `cloog_names_scalarize` (source/names.c:474-518).  `scaldims` has one entry per scattering
    dimension; nothing happens if there are none or none is scalar. -/
def scalarize (t : Table) (scaldims : List Int) : Table :=
  if scaldims.all (fun s => s = 0) then t
  else
    let (sc, scat) := scalarizeGo scaldims t.scattering
    { t with scalars := sc, scattering := scat }

/-- `cloog_names_name_at_level` (source/names.c:524-530); `none`: reads outside the arrays.  Level 0
    reads before the first entry. -/
def nameAtLevel (t : Table) (level : Nat) : Option CStr :=
  if level = 0 then none
  else if level ≤ t.scattering.length then t.scattering[level - 1]?
  else t.iterators[level - t.scattering.length - 1]?

end Verif.Names
