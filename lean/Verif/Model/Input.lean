import Verif.Model.Matrix
import Verif.Model.UnionDomain

/-!
# Reading and dumping input files

Model of source/input.c (without OpenScop), of `cloog_names_read_strings` (source/names.c:267-325), of the
reading part of source/union_domain.c (155-306) and of the three reading functions of
source/isl/domain.c (430-520).  A file is the list of characters still to be read.  Allocation failure is
modelled only where a size is negative.
-/

namespace Verif.Input
open Verif.Options Verif.Matrix Verif.Names Verif.UnionDomain

/-- The outcomes of reading. -/
inductive Res (α : Type)
  | ok (a : α)
  /-- `cloog_die` -/
  | die
  /-- undefined behaviour: a buffer is overrun -/
  | ub
  /-- a loop that never ends -/
  | hang
  /-- isl reports an error and returns a null pointer; what the code does next is not modelled -/
  | isl
  deriving DecidableEq, Repr

def Res.bind {α β : Type} : Res α → (α → Res β) → Res β
  | .ok a, f => f a
  | .die, _ => .die
  | .ub, _ => .ub
  | .hang, _ => .hang
  | .isl, _ => .isl

/-- A result of isl. -/
def Res.ofIsl {α : Type} : Option α → Res α
  | some a => .ok a
  | none => .isl

/-- What is used of isl here (source/isl/domain.c:73-107, 430-520); `R` are relations (`isl_map`), sets are
    relations without input dimensions.
    * `rd`: `isl_map_read_from_file` and `isl_set_read_from_file`; the rest of the file is left
    * `wr`: `isl_printer_print_set` and `isl_printer_print_map` in the format `ISL_FORMAT_EXT_POLYLIB`
    * `np`, `nin`, `nout`: numbers of parameters, input and output (set) dimensions
    * `toParam r first n`: `isl_map_move_dims`, `n` output dimensions from `first` on become the first
      parameters
    * `toIn r first n`: the same, they become the first input dimensions -/
structure Isl (R : Type) where
  rd : Str → Option (R × Str)
  wr : R → Str
  np : R → Nat
  nin : R → Nat
  nout : R → Nat
  toParam : R → Int → Int → Option R
  toIn : R → Int → Int → Option R

variable {R : Type}

/-! ## Lines -/

/-- `next_line` (source/input.c:12-24, source/union_domain.c:154-166) with the contents of the buffer:
    the next line that is not blank and not a comment, with its leading blanks. -/
def nextRaw : Nat → Str → Option (Str × Str)
  | 0, _ => none
  | fuel + 1, f =>
    match fgets 1023 f with
    | none => none
    | some (line, rest) =>
      let p := line.dropWhile isBlank
      if p.head? = some '#' ∨ p.head? = some '\n' then nextRaw fuel rest
      else some (line, rest)

/-- The conversion `%d` of `sscanf` (source/names.c:274, source/union_domain.c:184, 247, 266): white space,
    an optional sign, digits; `none` if there is no digit.  The value is converted as by `strtol` and the
    assignment to an `int`. -/
def scanD (s : Str) : Option (Int × Str) :=
  let q := s.dropWhile isspace
  let t := if q.head? = some '-' ∨ q.head? = some '+' then q.tail else q
  if t.takeWhile isdigit = [] then none
  else some (toInt (saturate (signedVal q)), t.dropWhile isdigit)

/-! ## Names -/

/-- source/names.c:272-276: the line with the name option.  At the end of the file both loops go on for
    ever.  `fuel` bounds the number of lines. -/
def readOption : Nat → Str → Res (Int × Str)
  | 0, _ => .hang
  | fuel + 1, f =>
    match fgets 1023 f with
    | none => .hang
    | some (s, rest) =>
      if s.head? = some '#' ∨ s.head? = some '\n' then readOption fuel rest
      else
        match scanD s with
        | none => readOption fuel rest
        | some (n, _) => .ok (n, rest)

/-- `MAX_NAME` (include/cloog/names.h:48): the size of the buffer for a name. -/
def maxName : Nat := 50

/-- source/names.c:304-315: the names, all from one line. -/
def readWords : Nat → Str → Res (List Str)
  | 0, _ => .ok []
  | n + 1, c =>
    let q := c.dropWhile isspace
    if q = [] ∨ q.head? = some '#' then .die
    else
      let w := q.takeWhile (fun c => !isspace c)
      if maxName ≤ w.length then .ub
      else (readWords n (q.drop w.length)).bind fun ws => .ok (w :: ws)

/-- `cloog_names_read_strings` (source/names.c:267-325).  A negative number of items gives a negative size
    and the allocation fails. -/
def readNames (nb : Int) (f : Str) : Res (Option (List Str) × Str) :=
  (readOption (f.length + 1) f).bind fun r =>
    if nb = 0 then .ok (none, r.2)
    else if r.1 = 0 then .ok (none, r.2)
    else if nb < 0 then .die
    else
      match nextLine (r.2.length + 1) r.2 with
      | none => .die
      | some (c, rest) => (readWords nb.toNat c).bind fun ws => .ok (some ws, rest)

/-! ## Domains and scatterings -/

/-- `cloog_domain_read_context` (source/isl/domain.c:436-446): all set dimensions become parameters. -/
def readContext (o : Isl R) (f : Str) : Res (R × Str) :=
  (Res.ofIsl (o.rd f)).bind fun r =>
    (Res.ofIsl (o.toParam r.1 0 (o.nout r.1))).bind fun s => .ok (s, r.2)

/-- `cloog_domain_union_read` (source/isl/domain.c:467-481): unless the file names the right number of
    parameters the last `nb` set dimensions become parameters. -/
def readDomain (o : Isl R) (nb : Nat) (f : Str) : Res (R × Str) :=
  (Res.ofIsl (o.rd f)).bind fun r =>
    if o.np r.1 ≠ nb then
      (Res.ofIsl (o.toParam r.1 ((o.nout r.1 : Int) - nb) nb)).bind fun s => .ok (s, r.2)
    else .ok r

/-- The second half of `cloog_domain_read_scattering` (source/isl/domain.c:514-518). -/
def scatIn (o : Isl R) (dim : Nat) (s : R) : Res R :=
  if o.nin s ≠ dim then Res.ofIsl (o.toIn s ((o.nout s : Int) - dim) dim) else .ok s

/-- `cloog_domain_read_scattering` (source/isl/domain.c:495-520).  `n_scat` is unsigned in the code; a
    negative value is an error of isl as well. -/
def readScattering (o : Isl R) (dom : R) (f : Str) : Res (R × Str) :=
  (Res.ofIsl (o.rd f)).bind fun r =>
    (if o.np r.1 ≠ o.np dom then Res.ofIsl (o.toParam r.1 ((o.nout r.1 : Int) - o.np dom) (o.np dom))
      else .ok r.1).bind fun s =>
    (scatIn o (o.nout dom) s).bind fun s => .ok (s, r.2)

/-- `sscanf (line, " %d %d %d", …) == 3` (source/union_domain.c:266). -/
def scan3 (s : Str) : Bool :=
  match scanD s with
  | none => false
  | some (_, s) =>
    match scanD s with
    | none => false
    | some (_, s) => (scanD s).isSome

/-- The loop over the domains (source/union_domain.c:254-268). -/
def readDomains (o : Isl R) (nb : Nat) : Nat → Str → Res (List R × Str)
  | 0, f => .ok ([], f)
  | n + 1, f =>
    (readDomain o nb f).bind fun r =>
      match nextRaw (r.2.length + 1) r.2 with
      | none => .die
      | some (line, rest) =>
        if scan3 line = false then .die
        else (readDomains o nb n rest).bind fun rs => .ok (r.1 :: rs.1, rs.2)

/-- source/union_domain.c:180-184: the number of scatterings, 0 at the end of the file. -/
def readCount : Nat → Str → Int × Str
  | 0, f => (0, f)
  | fuel + 1, f =>
    match fgets 1023 f with
    | none => (0, f)
    | some (s, rest) =>
      if s.head? = some '#' ∨ s.head? = some '\n' then readCount fuel rest
      else
        match scanD s with
        | none => readCount fuel rest
        | some (n, _) => (n, rest)

/-- The loop over the scatterings (source/union_domain.c:192-200). -/
def readScats (o : Isl R) : List R → Str → Res (List R × Str)
  | [], f => .ok ([], f)
  | d :: ds, f =>
    (readScattering o d f).bind fun r => (readScats o ds r.2).bind fun rs => .ok (r.1 :: rs.1, rs.2)

/-- `cloog_scattering_list_read` (source/union_domain.c:173-202); `none`: there are no scatterings. -/
def readScatList (o : Isl R) (ds : List R) (f : Str) : Res (Option (List R) × Str) :=
  let r := readCount (f.length + 1) f
  if r.1 = 0 then .ok (none, r.2)
  else if r.1 ≠ ds.length then .die
  else (readScats o ds r.2).bind fun rs => .ok (some rs.1, rs.2)

/-- The characters of a string as numbers, the representation of names in the union domain. -/
def cstr (s : Str) : CStr := s.map Char.toNat

/-- `set_names_from_list` (source/union_domain.c:204-219) as calls of `cloog_union_domain_set_name`. -/
def nameCalls (ty : Ty) (names : Option (List Str)) : List (Call R R Unit) :=
  match names with
  | none => []
  | some ns => ns.zipIdx.map fun p => .setName (some ty) p.2 (cstr p.1)

/-- The calls that add the domains (source/union_domain.c:277-295): no names, no user data. -/
def addCalls (ds : List R) (ss : Option (List R)) : List (Call R R Unit) :=
  match ss with
  | none => ds.map fun d => .add ⟨none, d, none, ()⟩
  | some ss => List.zipWith (fun d s => .add ⟨none, d, some s, ()⟩) ds ss

/-- Calls of the interface; its errors are calls of `cloog_die`. -/
def runCalls (o : Isl R) (cs : List (Call R R Unit)) (ud : UD R R Unit) : Res (UD R R Unit) :=
  match run o.nout o.nout cs ud with
  | .ok ud => .ok ud
  | .error _ => .die

/-- The largest number of dimensions of a domain, -1 without domains (source/union_domain.c:238, 260-261). -/
def maxDim (o : Isl R) (ds : List R) : Int := ds.foldl (fun n d => if (o.nout d : Int) > n then o.nout d else n) (-1)

/-- The end of `cloog_union_domain_read` (source/union_domain.c:297-303): the names of the scattering
    dimensions. -/
def readScatNames (o : Isl R) (ss : Option (List R)) (ud : UD R R Unit) (f : Str) : Res (UD R R Unit × Str) :=
  match ss with
  | none => .ok (ud, f)
  | some _ =>
    (readNames (ud.n .scat) f).bind fun r =>
      (runCalls o (nameCalls .scat r.1) ud).bind fun ud => .ok (ud, r.2)

/-- `cloog_union_domain_read` (source/union_domain.c:226-306) with the rest of the file.  The warning about
    similar scatterings is not modelled. -/
def readUnion (o : Isl R) (nbPar : Nat) (f : Str) : Res (UD R R Unit × Str) :=
  (readNames nbPar f).bind fun pn =>
  (runCalls o (nameCalls .param pn.1) (alloc nbPar)).bind fun ud =>
  match nextRaw (pn.2.length + 1) pn.2 with
  | none => .die
  | some (line, rest) =>
    match scanD line with
    | none => .die
    | some (n, _) =>
      if n < 0 then .die
      else
        (readDomains o nbPar n.toNat rest).bind fun ds =>
        (readNames (maxDim o ds.1) ds.2).bind fun its =>
        (readScatList o ds.1 its.2).bind fun ss =>
        (runCalls o (addCalls ds.1 ss.1) ud).bind fun ud =>
        (runCalls o (nameCalls .iter its.1) ud).bind fun ud =>
        readScatNames o ss.1 ud ss.2

/-- The language option (`CLOOG_LANGUAGE_C`, `CLOOG_LANGUAGE_FORTRAN`, include/cloog/options.h). -/
inductive Language
  | c
  | fortran
  deriving DecidableEq, Repr

/-- `struct clooginput` (include/cloog/input.h:9-12) and the language option. -/
structure Input (R : Type) where
  language : Language
  context : R
  ud : UD R R Unit

/-- `cloog_input_read` (source/input.c:58-97) without OpenScop, with the rest of the file.  The language is
    the first character of the buffer, not of the text behind the blanks. -/
def readInput (o : Isl R) (f : Str) : Res (Input R × Str) :=
  match nextRaw (f.length + 1) f with
  | none => .die
  | some (line, rest) =>
    (readContext o rest).bind fun ctx =>
    (readUnion o (o.np ctx.1) ctx.2).bind fun u =>
      .ok (⟨if line.head? = some 'f' then .fortran else .c, ctx.1, u.1⟩, u.2)

/-! ## Dumping -/

/-- `fprintf` of `%s` (source/input.c:135, 184, 212): the C library prints `(null)` for a null pointer. -/
def printStr : Option CStr → Str
  | none => "(null)".toList
  | some s => s.map Char.ofNat

/-- `print_names` (source/input.c:125-138). -/
def printNames (ns : Option (List (Option CStr))) (what : Str) : Str :=
  match ns with
  | none => '\n' :: "0 # ".toList ++ what ++ " name(s)\n".toList
  | some l => '\n' :: "1 # ".toList ++ what ++ " name(s)\n".toList ++
      l.flatMap (fun x => printStr x ++ [' ']) ++ ['\n']

/-- The loop over the domains (source/input.c:178-191), the first being number `i`. -/
def dumpDomains (o : Isl R) : Nat → List (Named R R Unit) → Str
  | _, [] => []
  | i, a :: as =>
    "# Iteration domain of statement ".toList ++ printNat i ++ " (".toList ++ printStr a.name ++ ").\n".toList ++
      o.wr a.dom ++ "\n0 0 0 # For future options.\n\n".toList ++ dumpDomains o (i + 1) as

/-- The loop over the scatterings (source/input.c:207-219); `none`: a null pointer is given to isl. -/
def dumpScats (o : Isl R) : Nat → List (Named R R Unit) → Option Str
  | _, [] => some []
  | i, a :: as =>
    match a.scat with
    | none => none
    | some s =>
      (dumpScats o (i + 1) as).map fun t =>
        "\n# Scattering of statement ".toList ++ printNat i ++ " (".toList ++ printStr a.name ++ ").\n".toList ++
          o.wr s ++ t

/-- The language (source/input.c:158-164). -/
def dumpLanguage : Language → Str
  | .fortran => "# Language: FORTRAN\nf\n\n".toList
  | .c => "# Language: C\nc\n\n".toList

/-- The part of the dump before the scatterings (source/input.c:151-193). -/
def dumpHead (o : Isl R) (inp : Input R) : Str :=
  "# CLooG -> CLooG\n".toList ++
  "# This is an automatic dump of a CLooG input file from a CloogInput data\n".toList ++
  "# structure.\n\n".toList ++
  dumpLanguage inp.language ++
  "# Context:\n".toList ++ o.wr inp.context ++ printNames (inp.ud.names .param) "Parameter".toList ++
  "\n# Statement number:\n".toList ++ printNat inp.ud.domains.length ++ "\n\n".toList ++
  dumpDomains o 1 inp.ud.domains ++ printNames (inp.ud.names .iter) "Iterator".toList

/-- `cloog_input_dump_cloog` (source/input.c:145-222): scatterings are printed if the first domain has
    one. -/
def dump (o : Isl R) (inp : Input R) : Option Str :=
  match inp.ud.domains with
  | [] => some (dumpHead o inp ++ "# No scattering functions.\n0\n\n".toList)
  | a :: _ =>
    match a.scat with
    | none => some (dumpHead o inp ++ "# No scattering functions.\n0\n\n".toList)
    | some _ =>
      (dumpScats o 1 inp.ud.domains).map fun t =>
        dumpHead o inp ++ "# --------------------- SCATTERING --------------------\n".toList ++
          printNat inp.ud.domains.length ++ " # Scattering functions\n".toList ++ t ++
          printNames (inp.ud.names .scat) "Scattering dimension".toList

end Verif.Input
