import Verif.Model.Input

/-!
# Dumping a program as an input file

Model of `cloog_program_dump_cloog` (source/program.c:170-255).  Texts are lists of characters; isl is a
parameter.
-/

namespace Verif.ProgDump
open Verif.Options Verif.Matrix Verif.Names Verif.UnionDomain Verif.Input

/-- The functions of isl used for printing here, beside those of `Isl`.
    * `old`: `cloog_domain_print_constraints` without the number of polyhedra (source/isl/domain.c:85-93):
      the format `ISL_FORMAT_POLYLIB`; `none`: the assertion that there is one polyhedron fails
    * `pieces`, `body`: `isl_printer_print_map` in the format `ISL_FORMAT_EXT_POLYLIB`
      (source/isl/domain.c:98-107) prints a line with the number of polyhedra and then the polyhedra -/
structure IslDump (R : Type) extends Isl R where
  old : R → Option Str
  pieces : R → Nat
  body : R → Str

/-- What is printed of a `struct cloogprogram` (include/cloog/program.h:55-74) and its names
    (include/cloog/names.h:56-67).  A loop is its domain and the number of statements in its block. -/
structure Prog (R : Type) where
  language : Language
  context : R
  params : List (Option CStr)
  scats : List (Option CStr)
  iters : List (Option CStr)
  loops : List (R × Nat)

variable {R : Type}

/-- `fprintf(foo,"%s ",name)` in a loop (source/program.c:198-199, 229-232, 252-253). -/
def nameWords (l : List (Option CStr)) : Str := l.flatMap fun x => printStr x ++ [' ']

/-- The loop over the domains (source/program.c:213-223), the first being number `i`. -/
def loopTexts (o : IslDump R) : Nat → List R → Str
  | _, [] => []
  | i, d :: ds =>
    "# Iteration domain of statement ".toList ++ printNat i ++ ".\n".toList ++ o.wr d ++
      "0 0 0 # For future options.\n\n".toList ++ loopTexts o (i + 1) ds

/-- The comment at the beginning (source/program.c:177-184). -/
def header : Str :=
  "# CLooG -> CLooG\n".toList ++
  "# This is an automatic dump of a CLooG input file from a CloogProgram data\n".toList ++
  "# structure. WARNING: it is highly dangerous and MAY be correct ONLY if\n".toList ++
  "# - it has been dumped before loop generation.\n".toList ++
  "# - option -noscalars is used (it removes scalar dimensions otherwise)\n".toList ++
  "# - option -l is at least the original scattering dimension number\n".toList ++
  "# ASK THE AUTHOR IF YOU *NEED* SOMETHING MORE ROBUST\n".toList

/-- The names of the iterators (source/program.c:228-232): without scatterings, those of the scattering
    dimensions come first. -/
def iterNames (p : Prog R) (scat : List R) : List (Option CStr) :=
  (if scat = [] then p.scats else []) ++ p.iters

/-- The scatterings (source/program.c:235-254). -/
def scatText (o : IslDump R) (p : Prog R) (scat : List R) : Str :=
  if scat = [] then "# No scattering functions.\n0\n\n".toList
  else
    "# --------------------- SCATTERING --------------------\n".toList ++
    printNat scat.length ++ " # Scattering functions".toList ++ scat.flatMap o.wr ++
    "\n1 # Scattering dimension name(s)\n".toList ++ nameWords p.scats

/-- `cloog_program_dump_cloog` (source/program.c:170-255) with the list of scatterings (`[]`: a null
    pointer); `none`: an assertion fails. -/
def progDump (o : IslDump R) (p : Prog R) (scat : List R) : Option Str :=
  (o.old p.context).map fun ctx =>
    header ++ dumpLanguage p.language ++
    "# Context (".toList ++ printNat p.params.length ++ " parameter(s)):\n".toList ++ ctx ++
    "1 # Parameter name(s)\n".toList ++ nameWords p.params ++
    "\n\n# Statement number:\n".toList ++ printNat p.loops.length ++ "\n\n".toList ++
    loopTexts o 1 (p.loops.map Prod.fst) ++
    "\n1 # Iterator name(s)\n".toList ++ nameWords (iterNames p scat) ++ "\n\n".toList ++
    scatText o p scat

end Verif.ProgDump
