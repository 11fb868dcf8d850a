import Verif.Model.Filter
import Verif.Model.ProgText

/-!
# Programs from OpenScop specifications

Model of `annotate_loops`, the declarations, and `cloog_program_osl_pprint` (source/program.c:404-676).
-/

namespace Verif.Annotate
open Verif.PText Verif.ProgText

/-- `osl_loop_t`, a type of the OpenScop library, with the parts that are read (source/program.c:480-520):
    iterator, statements, the bits of `directive`, texts.  `none` is the null pointer. -/
structure Ann where
  iter : Option String
  stmts : Option (List Int)
  omp : Bool := false
  mpi : Bool := false
  vec : Bool := false
  user : Bool := false
  privateVars : Option String := none
  directive : Option String := none

/-- The filter for an annotation (source/program.c:481-482). -/
def filt (ty : Filter.FType) (a : Ann) : Filter.Filt := ⟨a.iter, a.stmts, ty⟩

/-- The part for vectorisation (source/program.c:500-503). -/
def markVec (a : Ann) (t : Attr) : Attr := if a.vec then { t with vec := true } else t

/-- The part for OpenMP (source/program.c:505-511). -/
def markOmp (a : Ann) (t : Attr) : Attr :=
  if a.omp then
    (match a.privateVars with
      | some v => { t with omp := true, privateVars := some v }
      | none => { t with omp := true })
  else t

/-- The part for directives of users (source/program.c:513-519). -/
def markUser (a : Ann) (t : Attr) : Attr :=
  if a.user then
    (match a.directive with
      | some d => { t with user := true, directive := some d }
      | none => { t with user := true })
  else t

/-- One loop (source/program.c:498-521). -/
def mark (a : Ann) (t : Attr) : Attr := markUser a (markOmp a (markVec a t))

/-- The fields of the loops, by identity of the loop, and how many warnings were printed. -/
structure St where
  attr : Nat → Attr
  warnings : Nat

/-- Change the fields of a loop. -/
def upd (f : Nat → Attr) (x : Nat) (t : Attr) : Nat → Attr := fun y => if y = x then t else f y

/-- One annotation (source/program.c:478-526). -/
def annotate1 (ty : Filter.FType) (root : List Filter.Node) (s : St) (a : Ann) : St :=
  let ls := (Filter.filter (filt ty a) root).loops
  if ls.isEmpty then { s with warnings := s.warnings + 1 }
  else { s with attr := ls.foldl (fun f x => upd f x (mark a (f x))) s.attr }

/-- `annotate_loops` (source/program.c:463-530).  The value it returns is used nowhere and left out. -/
def annotate (ty : Filter.FType) (root : List Filter.Node) (anns : List Ann) (s : St) : St :=
  anns.foldl (annotate1 ty root) s

/-- The fields of a new loop (source/clast.c:242-282). -/
def fresh : St := ⟨fun _ => {}, 0⟩

/-- `get_osl_loop_flags` (source/program.c:405-414): the bits that are used. -/
def flags (anns : List Ann) : Bool × Bool := (anns.any (·.omp), anns.any (·.vec))

/-- `print_declarations` (source/program.c:303-313). -/
def declsAt (n : Nat) (ns : List String) : List Char := indC n ++ (lit "int " ++ (joined ", " ns ++ lit ";\n"))

/-- The groups of names that are declared, with the comments before them
    (source/program.c:315-345, 427-457). -/
def groups (coords : Bool) (p : Prog) (anns : List Ann) : List (Option String × List String) :=
  (if (ownScat p).isEmpty then [] else [(some "/* Scattering iterators. */\n", ownScat p)]) ++
  ((if coords || p.iters.isEmpty then [] else [(some "/* Original iterators. */\n", p.iters)]) ++
  ((if (flags anns).1 then [(none, ["lbp", "ubp"])] else []) ++
  (if (flags anns).2 then [(none, ["lbv", "ubv"])] else [])))

/-- The text of a group. -/
def groupText (n : Nat) (g : Option String × List String) : List Char :=
  (match g.1 with
    | some c => indC n ++ lit c
    | none => []) ++ declsAt n g.2

/-- `print_iterator_declarations_osl` (source/program.c:416-458).  `coords`: the specification has an
    extension for coordinates. -/
def declsOsl (n : Nat) (coords : Bool) (p : Prog) (anns : List Ann) : List Char :=
  (groups coords p anns).flatMap (groupText n) ++ ['\n']

/-- `osl_coordinates_t` (used at source/program.c:583-665) without the name of the file. -/
structure Coords where
  lineStart : Int
  lineEnd : Int
  columnStart : Int
  columnEnd : Int
  indent : Nat

/-- The state of copying the original file: characters not read yet, `lines`, `columns`, `read = EOF`. -/
structure Rd where
  rest : List Char
  lines : Int
  columns : Int
  eof : Bool
  deriving DecidableEq

/-- What was before the SCoP (source/program.c:599-610): the text printed, and the state after. -/
def copyBefore (c : Coords) : List Char → Int → Int → List Char × Rd
  | cs, lines, columns =>
    if lines < c.lineStart - 1 ∨ columns < c.columnStart - 1 then
      match cs with
      | [] => ([], ⟨[], lines, columns + 1, true⟩)
      | ch :: t =>
        let r := if ch = '\n' then copyBefore c t (lines + 1) 0 else copyBefore c t lines (columns + 1)
        (ch :: r.1, r.2)
    else ([], ⟨cs, lines, columns, false⟩)

/-- What was after the SCoP (source/program.c:650-663). -/
def copyAfter (c : Coords) : List Char → Int → Int → List Char
  | [], _, _ => []
  | ch :: t, lines, columns =>
    (if (lines = c.lineEnd - 1 ∧ columns + 1 > c.columnEnd) ∨ lines > c.lineEnd - 1 then [ch] else []) ++
    (if ch = '\n' then copyAfter c t (lines + 1) 0 else copyAfter c t lines (columns + 1))

/-- The loop is not entered at the end of the file (source/program.c:650). -/
def copyRest (c : Coords) (r : Rd) : List Char := if r.eof then [] else copyAfter c r.rest r.lines r.columns

/-- A line of `osl_region_text_t`: bits of its type, and text. -/
abbrev RLine := ALine

/-- `cloog_program_pprint_osl_region_text` (source/program.c:533-543). -/
def regionText (t : List RLine) : List Char :=
  t.flatMap fun x => (if x.pragma then lit "#pragma " else []) ++ (if x.user then x.text.toList ++ ['\n'] else [])

/-- `osl_region_t`: whether its location is global, and the texts. -/
structure Region where
  isGlobal : Bool
  pre : List RLine
  prelude_ : List RLine
  postlude : List RLine
  suffix : List RLine

/-- The region that is used (source/program.c:617-626). -/
def globalRegion (rs : List Region) : Option Region := rs.find? (·.isGlobal)

/-- The text before and after the code, from the region (source/program.c:628-633, 642-646). -/
def regionOpen : Option Region → List Char
  | none => []
  | some r => regionText r.pre ++ (lit "{\n" ++ regionText r.prelude_)

/-- See `regionOpen`. -/
def regionClose : Option Region → List Char
  | none => []
  | some r => regionText r.postlude ++ (lit "}\n" ++ regionText r.suffix)

/-- The parts of an OpenScop specification that `cloog_program_osl_pprint` reads: coordinates, the content
    of the file they name (`none`: it cannot be opened), regions, loop annotations. -/
structure Scop where
  coords : Option Coords
  file : Option (List Char)
  regions : List Region
  anns : List Ann

/-- The coordinates, if the file can be opened (source/program.c:582-592). -/
def Scop.open_ (s : Scop) : Option (Coords × List Char) :=
  match s.coords, s.file with
  | some c, some f => some (c, f)
  | _, _ => none

/-- The indentation (source/program.c:585, 632); that of the coordinates also if the file cannot be
    opened. -/
def Scop.indent (s : Scop) : Nat :=
  (match s.coords with | some c => c.indent | none => 0) + (if (globalRegion s.regions).isSome then 2 else 0)

/-- The text for the code (source/program.c:628-646); `body` is the clast with its annotations. -/
def Scop.code (s : Scop) (f : Cfg) (p : Prog) (body : List PStmt) : Option (List Char) :=
  (pprint f s.indent body).map fun t =>
    regionOpen (globalRegion s.regions) ++ (declsOsl s.indent s.coords.isSome p s.anns ++
      (t ++ regionClose (globalRegion s.regions)))

/-- `cloog_program_osl_pprint` (source/program.c:559-676) with an OpenScop specification, without the
    options `-compilable` and `-callable`. -/
def oslText (s : Scop) (f : Cfg) (from_ : List Char) (p : Prog) (body : List PStmt) : Option (List Char) :=
  (s.code f p body).map fun t =>
    comment f.lang from_ ++ (macros ++
      (match s.open_ with
        | none => t
        | some (c, file) =>
          let r := copyBefore c file 0 0
          r.1 ++ ((if c.columnStart > 0 then ['\n'] else []) ++ (t ++ copyRest c r.2))))

end Verif.Annotate
