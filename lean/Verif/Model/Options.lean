import Mathlib.Logic.Function.Basic

/-!
# Command line options

Model of the option table and the command line reader (source/options.c) and of the option
adjustment at the start of `cloog_program_generate` (source/program.c).
-/

namespace Verif.Options

/-- A C string: its characters without the terminating zero. -/
abbrev Str := List Char

/-- `isspace` in the "C" locale (used by `strtol`, source/options.c:312). -/
def isspace (c : Char) : Bool :=
  c = ' ' || c = '\t' || c = '\n' || c.toNat = 11 || c.toNat = 12 || c = '\r'

/-- A decimal digit, as accepted by `strtol` with base 10 (source/options.c:312). -/
def isdigit (c : Char) : Bool := 48 ≤ c.toNat && c.toNat ≤ 57

/-- The value of a digit string, most significant digit first (source/options.c:312). -/
def digitsVal (s : Str) : Int := s.foldl (fun a c => a * 10 + ((c.toNat : Int) - 48)) 0

/-- The number at the start of a string without leading white space: an optional sign and the
    longest digit prefix (`strtol` with base 10, source/options.c:312). -/
def signedVal (s : Str) : Int :=
  if s.head? = some '-' then - digitsVal (s.tail.takeWhile isdigit)
  else if s.head? = some '+' then digitsVal (s.tail.takeWhile isdigit)
  else digitsVal (s.takeWhile isdigit)

/-- `strtol` returns the nearest `long` for numbers out of range (source/options.c:312); `long` has
    64 bits. -/
def saturate (v : Int) : Int :=
  if v > 2 ^ 63 - 1 then 2 ^ 63 - 1 else if v < - 2 ^ 63 then - 2 ^ 63 else v

/-- `strtol (s, NULL, 10)` (called at source/options.c:312): white space, an optional sign, the
    longest digit prefix; the rest is ignored and out of range values saturate. -/
def strtol (s : Str) : Int := saturate (signedVal (s.dropWhile isspace))

/-- Conversion of a `long` to an `int` (the assignment at source/options.c:312): modulo `2^32`, as
    all supported compilers define it. -/
def toInt (x : Int) : Int := (x + 2 ^ 31) % 2 ^ 32 - 2 ^ 31

/-- The integer fields of `CloogOptions` that the command line can change
    (include/cloog/options.h, source/options.c:338-376). -/
inductive Key
  | l | f | stop | strides | sh | firstUnroll | esp | fsp | otl | block | compilable | callable
  | quiet | exactFilter | openscop | leaks | backtrack | override | structure | noblocks
  | noscalars | nosimplify
  deriving DecidableEq, Repr

/-- Default values, `cloog_options_malloc` (source/options.c:328-379). -/
def defaults : Key → Int
  | .l => -1
  | .f => 1
  | .stop => -1
  | .firstUnroll => -1
  | .esp => 1
  | .fsp => 1
  | .otl => 1
  | _ => 0

/-- The options that take a number (source/options.c:396-440). -/
def numKey (a : Str) : Option Key :=
  if a = "-l".toList then some .l
  else if a = "-f".toList then some .f
  else if a = "-stop".toList then some .stop
  else if a = "-strides".toList then some .strides
  else if a = "-sh".toList then some .sh
  else if a = "-first-unroll".toList then some .firstUnroll
  else if a = "-otl".toList then some .otl
  else if a = "-esp".toList then some .esp
  else if a = "-fsp".toList then some .fsp
  else if a = "-block".toList then some .block
  else if a = "-compilable".toList then some .compilable
  else if a = "-callable".toList then some .callable
  else if a = "-exact-clast-filtering".toList then some .exactFilter
  else none

/-- The options without argument that set fields (source/options.c:441-476, 489-490).  The order of
    the tests in the C code does not matter, since all strings differ. -/
def flagKeys (a : Str) : Option (List (Key × Int)) :=
  if a = "-loopo".toList then some [(.esp, 0), (.block, 1)]
  else if a = "-bipbip".toList then some [(.backtrack, 0)]
  else if a = "-leaks".toList then some [(.leaks, 1)]
  else if a = "-nobacktrack".toList then some [(.backtrack, 0)]
  else if a = "-backtrack".toList then some [(.backtrack, 1)]
  else if a = "-override".toList then some [(.override, 1)]
  else if a = "-noblocks".toList then some [(.noblocks, 1)]
  else if a = "-noscalars".toList then some [(.noscalars, 1)]
  else if a = "-nosimplify".toList then some [(.nosimplify, 1)]
  else if a = "-struct".toList then some [(.structure, 1)]
  else if a = "-structure".toList then some [(.structure, 1)]
  else if a = "--quiet".toList then some [(.quiet, 1)]
  else if a = "-q".toList then some [(.quiet, 1)]
  else none

/-- The options that print information (source/options.c:477-488). -/
def isInfo (a : Str) : Bool :=
  a = "--help".toList || a = "-h".toList || a = "--version".toList || a = "-v".toList

/-- What the reader keeps between arguments (source/options.c:386-395): the option table, the input
    and output file names (`none`: not set, resp. standard output) and the flag `infos`. -/
structure St where
  opts : Key → Int := defaults
  input : Option Str := none
  output : Option Str := none
  infos : Bool := false

/-- The reasons for `cloog_die` (source/options.c). -/
inductive Err
  | lacksArgument | noOutputName | cantCreate | noFile | multipleInput | noInput | noOpenscop
  deriving DecidableEq, Repr

/-- How reading ends: normally, with an error message and exit code 1, or with exit code 1 after
    printing information. -/
inductive Res
  | ok (st : St)
  | die (e : Err)
  | exit

/-- The files of the environment: which can be opened for reading and for writing, and whether
    CLooG was built with OpenScop support. -/
structure World where
  readable : Str → Bool
  writable : Str → Bool
  osl : Bool := false

/-- Assign a list of fields in order. -/
def setAll (kvs : List (Key × Int)) (o : Key → Int) : Key → Int :=
  kvs.foldl (fun o kv => Function.update o kv.1 kv.2) o

/-- `cloog_options_read` (source/options.c:386-528): the loop over the arguments after the program
    name, and the final check for an input file.  `cloog_options_set` (source/options.c:305-317) is
    the branch for `numKey`: its validity test looks at the variable `endptr`, which is the null
    pointer, and so never fires.  File names "stdin" and "stdout" are kept as names; opening
    them always succeeds. -/
def readArgs (w : World) : List Str → St → Res
  | [], st =>
    if st.input = none then (if st.infos then .exit else .die .noInput) else .ok st
  | a :: rest, st =>
    if a.head? = some '-' then
      match numKey a with
      | some k =>
        match rest with
        | [] => .die .lacksArgument
        | v :: rest' =>
          readArgs w rest' { st with opts := Function.update st.opts k (toInt (strtol v)) }
      | none =>
        if a = "-openscop".toList then
          if w.osl then readArgs w rest { st with opts := Function.update st.opts .openscop 1 }
          else .die .noOpenscop
        else
          match flagKeys a with
          | some kvs => readArgs w rest { st with opts := setAll kvs st.opts }
          | none =>
            if isInfo a then readArgs w rest { st with infos := true }
            else if a = "-o".toList then
              match rest with
              | [] => .die .noOutputName
              | v :: rest' =>
                if v = "stdout".toList then readArgs w rest' { st with output := none }
                else if w.writable v then readArgs w rest' { st with output := some v }
                else .die .cantCreate
            else readArgs w rest st
    else
      match st.input with
      | none =>
        if a = "stdin".toList ∨ w.readable a = true then
          readArgs w rest { st with input := some a }
        else .die .noFile
      | some _ => .die .multipleInput

/-- The adjustment of `-l` at the start of `cloog_program_generate` (source/program.c:1045-1082):
    nothing with `-override`; otherwise `-l` is raised to the number `n` of scattering dimensions
    if it is a depth below it, and set to `n` if `-f` is not 0 or 1 and `-l` is deeper than `n` or
    infinite (negative).  The warnings are not modelled. -/
def fixLast (override f l n : Int) : Int :=
  if override ≠ 0 then l
  else
    let l := if n > l ∧ l ≥ 0 then n else l
    if (f > 1 ∨ f < 0) ∧ (l > n ∨ l < 0) then n else l

end Verif.Options
