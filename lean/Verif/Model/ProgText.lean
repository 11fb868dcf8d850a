import Verif.Model.PText

/-!
# Program text

Model of `cloog_program_pprint` (source/program.c:688-800) and the functions it uses
(source/program.c:271-402), for programs that do not come from an OpenScop specification
(`cloog_program_osl_pprint` returns 0 when the options carry none).
-/

namespace Verif.ProgText
open Verif.PText

/-- What the text around the generated code depends on: the names (`CloogNames`,
    include/cloog/names.h:56-67), and for every statement of the list of blocks, in order, its number and the
    depth of its block (include/cloog/block.h:60-72). -/
structure Prog where
  scat : List String
  iters : List String
  params : List String
  stmts : List (Nat × Nat)
  deriving DecidableEq

/-- The options `-compilable` (its value, 0 if not given) and `-callable` (include/cloog/options.h:91, 94). -/
structure Mode where
  compilable : Int
  callable : Bool

/-- `print_comment` (source/program.c:271-286) for the comment that says where the code comes from. -/
def comment (l : Lang) (c : List Char) : List Char :=
  match l with
  | .fortran => lit "! " ++ (c ++ ['\n'])
  | .c => lit "/* " ++ (c ++ lit " */\n")

/-- `print_macros` (source/program.c:288-301). -/
def macros : List Char :=
  lit "/* Useful macros. */\n" ++
  (lit "#define floord(n,d) (((n)<0) ? -((-(n)+(d)-1)/(d)) : (n)/(d))\n" ++
  (lit "#define ceild(n,d)  (((n)<0) ? -((-(n))/(d)) : ((n)+(d)-1)/(d))\n" ++
  (lit "#define max(x,y)    ((x) > (y) ? (x) : (y))\n" ++
  (lit "#define min(x,y)    ((x) < (y) ? (x) : (y))\n\n" ++
  (lit "#ifdef TIME \n#define IF_TIME(foo) foo; \n" ++
   lit "#else\n#define IF_TIME(foo)\n#endif\n\n")))))

/-- The names behind the first one, each with something in front. -/
def following (sep : String) (ns : List String) : List Char := ns.flatMap fun n => lit sep ++ n.toList

/-- Names with something between them; nothing if there are none. -/
def joined (sep : String) : List String → List Char
  | [] => []
  | n :: ns => n.toList ++ following sep ns

/-- `print_declarations` (source/program.c:303-313), with an indentation of 2.  It is never called without
    names. -/
def declarations (ns : List String) : List Char := lit "  int " ++ (joined ", " ns ++ lit ";\n")

/-- The names of the scattering dimensions that are not names of iterators (source/program.c:323-337). -/
def ownScat (p : Prog) : List String := p.scat.filter fun n => !p.iters.contains n

/-- `print_iterator_declarations` with `print_scattering_declarations` (source/program.c:315-358). -/
def iteratorDecls (p : Prog) : List Char :=
  (if (ownScat p).isEmpty then [] else lit "  /* Scattering iterators. */\n" ++ declarations (ownScat p)) ++
  (if p.iters.isEmpty then [] else lit "  /* Original iterators. */\n" ++ declarations p.iters)

/-- The left-hand side of the macro for a statement (source/program.c:374-379, 737-742).  The table of names
    is assumed to have an entry for each level of the block: where it has not, the C code reads behind its end,
    here there are fewer arguments. -/
def macroHead (p : Prog) (s : Nat × Nat) : List Char :=
  lit "#define " ++ (defName s.1 ++ ('(' :: (joined "," (p.iters.take s.2) ++ [')'])))

/-- The macro of a statement for `-callable` (source/program.c:374-383). -/
def callableMacro (p : Prog) (s : Nat × Nat) : List Char :=
  macroHead p s ++ (lit " { hash(" ++ (intC s.1 ++ (lit ");" ++
    ((p.iters.take s.2).flatMap (fun n => lit " hash(" ++ (n.toList ++ lit ");")) ++ lit " }\n"))))

/-- `print_callable_preamble` (source/program.c:360-396). -/
def callablePreamble (p : Prog) : List Char :=
  lit "extern void hash(int);\n\n" ++ (macros ++ (lit "#define S0 { hash(0); }\n" ++
    (p.stmts.flatMap (callableMacro p) ++ (lit "\nvoid test(" ++
      ((match p.params with | [] => [] | n :: ns => lit "int " ++ (n.toList ++ following ", int " ns)) ++
        (lit ")\n{\n" ++ iteratorDecls p))))))

/-- The macro of a statement for `-compilable` (source/program.c:737-757). -/
def compilableMacro (p : Prog) (s : Nat × Nat) : List Char :=
  macroHead p s ++ (lit " {total++;" ++
    ((match p.iters.take s.2 with
      | [] => []
      | n :: ns => lit " printf(\"" ++ (defName s.1 ++ (lit " %d" ++ (ns.flatMap (fun _ => lit " %d") ++
          (lit "\\n\"," ++ (n.toList ++ (following "," ns ++ lit ");"))))))) ++ lit "}\n"))

/-- The definitions of the values of the parameters (source/program.c:727-728). -/
def parVals (p : Prog) (v : Int) : List Char :=
  (List.range p.params.length).flatMap fun (i : Nat) =>
    lit "#define PARVAL" ++ (intC ((i : Int) + 1) ++ (' ' :: (intC v ++ ['\n'])))

/-- The declaration of the parameters (source/program.c:767-774). -/
def parDecls (p : Prog) : List Char :=
  match p.params with
  | [] => []
  | n :: ns => lit "  /* Parameters. */\n  int " ++ (n.toList ++ (lit "=PARVAL1" ++
      (ns.zipIdx.flatMap (fun m => lit ", " ++ (m.1.toList ++ (lit "=PARVAL" ++ intC ((m.2 : Int) + 2)))) ++
        lit ";\n")))

/-- What comes before the code for `-compilable` (source/program.c:718-777). -/
def compilablePreamble (p : Prog) (v : Int) : List Char :=
  lit "/* DON'T FORGET TO USE -lm OPTION TO COMPILE. */\n\n" ++
  (lit "/* Useful headers. */\n#include <stdio.h>\n#include <stdlib.h>\n#include <math.h>\n\n" ++
  (lit "/* Parameter value. */\n" ++ (parVals p v ++ (macros ++ (lit "/* Statement macros (please set). */\n" ++
  (p.stmts.flatMap (compilableMacro p) ++ (lit "\nint main() {\n" ++ (iteratorDecls p ++ (parDecls p ++
    lit "  int total=0;\n\n")))))))))

/-- What comes before the code (source/program.c:718-784). -/
def preamble (l : Lang) (m : Mode) (p : Prog) : List Char :=
  match l with
  | .fortran => []
  | .c => if m.compilable ≠ 0 then compilablePreamble p m.compilable
      else if m.callable then callablePreamble p else []

/-- What comes behind the code (source/program.c:791-799). -/
def postamble (l : Lang) (m : Mode) : List Char :=
  match l with
  | .fortran => []
  | .c => if m.compilable ≠ 0 then lit "\n  printf(\"Number of integral points: %d.\\n\",total);\n  return 0;\n}\n"
      else if m.callable then lit "}\n" else []

/-- The indentation of the code (source/program.c:780, 783). -/
def indentation (l : Lang) (m : Mode) : Nat :=
  match l with
  | .fortran => 0
  | .c => if m.compilable ≠ 0 ∨ m.callable = true then 2 else 0

/-- `cloog_program_pprint` (source/program.c:688-800).  `f` has the language of the program
    (source/program.c:702-705) and the option `callable`; `from` is the text of the first comment
    (source/program.c:707-717; the variants that print times and memory are not modelled), `body` the clast. -/
def programText (f : Cfg) (compilable : Int) (from_ : List Char) (p : Prog) (body : List PStmt) : Option (List Char) :=
  let m : Mode := ⟨compilable, f.callable⟩
  (pprint f (indentation f.lang m) body).map fun t =>
    comment f.lang from_ ++ (preamble f.lang m p ++ (t ++ postamble f.lang m))

end Verif.ProgText
