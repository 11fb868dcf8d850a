import Verif.Model.Options

/-!
# Reading and printing matrices

Model of the input part of source/matrix.c.  A file is the list of characters still to be read
(no zero characters).
-/

namespace Verif.Matrix

open Verif.Options

/-- The characters read by `fgets (line, n + 1, input)` and the rest of the file
    (source/matrix.c:159): up to and including the first newline, at most `n` characters. -/
def fgetsGo : Nat → Str → Str × Str
  | 0, f => ([], f)
  | _ + 1, [] => ([], [])
  | n + 1, c :: f =>
    if c = '\n' then (['\n'], f)
    else
      let r := fgetsGo n f
      (c :: r.1, r.2)

/-- `fgets` (source/matrix.c:159): `none` at the end of the file. -/
def fgets (n : Nat) (f : Str) : Option (Str × Str) :=
  if f = [] then none else some (fgetsGo n f)

/-- `isspace (*p) && *p != '\n'` (source/matrix.c:161). -/
def isBlank (c : Char) : Bool := isspace c && c ≠ '\n'

/-- `next_line` with a buffer of 1024 characters (source/matrix.c:154-166; the same function is in
    source/input.c and source/union_domain.c): the next line that is not empty and not a comment,
    without leading blanks.  `fuel` bounds the number of lines. -/
def nextLine : Nat → Str → Option (Str × Str)
  | 0, _ => none
  | fuel + 1, f =>
    match fgets 1023 f with
    | none => none
    | some (line, rest) =>
      let p := line.dropWhile isBlank
      if p.head? = some '#' ∨ p.head? = some '\n' then nextLine fuel rest
      else some (p, rest)

/-- `sscanf (p, "%s%n", val, &offset)` (source/matrix.c:204): `none` stands for the return value
    `EOF` (nothing but white space left); otherwise the word and the number of characters used.
    It never returns 0, which is what the code tests for. -/
def scanWord (p : Str) : Option (Str × Nat) :=
  let q := p.dropWhile isspace
  if q = [] then none
  else
    let w := q.takeWhile (fun c => !isspace c)
    some (w, (p.length - q.length) + w.length)

/-- The results of reading: a value, `cloog_die`, or undefined behaviour (use of memory behind the
    end of the string, or of an uninitialised variable). -/
inductive Out (α : Type)
  | ok (a : α)
  | die
  | ub
  deriving DecidableEq, Repr

def Out.bind {α β : Type} : Out α → (α → Out β) → Out β
  | .ok a, f => f a
  | .die, _ => .die
  | .ub, _ => .ub

/-- The loop over the columns (source/matrix.c:203-209).  `p` is the text left in the line (`none`:
    the pointer is behind the end of the string), `last` the contents of `val` and `offset` (`none`:
    `offset` not initialised in this row).  At the end of the line `sscanf` returns `EOF`, which is
    not 0, so the old word is used again and the pointer advances by the old offset. -/
def readCols (rd : Str → Int) : Nat → Option Str → Option (Str × Nat) → Out (List Int)
  | 0, _, _ => .ok []
  | n + 1, p, last =>
    match p with
    | none => .ub
    | some p =>
      match scanWord p with
      | some (w, off) =>
        (readCols rd n (some (p.drop off)) (some (w, off))).bind fun r => .ok (rd w :: r)
      | none =>
        match last with
        | none => .ub
        | some (w, off) =>
          (readCols rd n (if off ≤ p.length then some (p.drop off) else none) last).bind
            fun r => .ok (rd w :: r)

/-- The loop over the rows (source/matrix.c:196-210). -/
def readRows (rd : Str → Int) : Nat → Nat → Str → Out (List (List Int) × Str)
  | 0, _, f => .ok ([], f)
  | n + 1, cols, f =>
    match nextLine (f.length + 1) f with
    | none => .die
    | some (p, rest) =>
      (readCols rd cols (some p) none).bind fun row =>
        (readRows rd n cols rest).bind fun r => .ok (row :: r.1, r.2)

/-- `cloog_matrix_read_of_size` (source/matrix.c:184-213): the matrix and the rest of the file.
    Allocation failure is not modelled. -/
def readOfSize (rd : Str → Int) (rows cols : Nat) (f : Str) : Out (List (List Int) × Str) :=
  readRows rd rows cols f

/-- `cloog_int_read` with GMP: `mpz_set_str (r, s, 10)` (include/cloog/int.h.in:78).  A string that
    is not a number (an optional minus sign and digits) leaves the entry at its initial value 0. -/
def gmpRead (s : Str) : Int :=
  let d := if s.head? = some '-' then s.tail else s
  if d ≠ [] ∧ d.all isdigit then (if s.head? = some '-' then - digitsVal d else digitsVal d) else 0

/-- `cloog_int_read` with machine integers: `sscanf (s, "%lld", &i)` (include/cloog/int.h.in:142);
    numbers out of range saturate. -/
def llRead (s : Str) : Int := strtol s

/-- `sscanf` of one `%u` (source/matrix.c:175): white space, digits (a sign is accepted by the C
    library but does not occur in matrix files; it is not modelled), and the rest.  Values are
    taken modulo `2^32`. -/
def scanUnsigned (p : Str) : Option (Nat × Str) :=
  let q := p.dropWhile isspace
  let d := q.takeWhile isdigit
  if d = [] then none else some ((digitsVal d).toNat % 2 ^ 32, q.dropWhile isdigit)

/-- `cloog_matrix_read` (source/matrix.c:168-179): the size, then the rows.  The C code scans
    `line`, which differs from the result of `next_line` by leading blanks only. -/
def readMatrix (rd : Str → Int) (f : Str) : Out (List (List Int) × Str) :=
  match nextLine (f.length + 1) f with
  | none => .die
  | some (p, rest) =>
    match scanUnsigned p with
    | none => .die
    | some (rows, p') =>
      match scanUnsigned p' with
      | none => .die
      | some (cols, _) => readOfSize rd rows cols rest

/-- Decimal digits of a natural number; `fuel` bounds their number (`%u`, source/matrix.c:148). -/
def natChars : Nat → Nat → Str
  | 0, _ => []
  | fuel + 1, n =>
    if n < 10 then [Char.ofNat (48 + n)]
    else natChars fuel (n / 10) ++ [Char.ofNat (48 + n % 10)]

/-- A natural number in decimal notation (source/matrix.c:148). -/
def printNat (n : Nat) : Str := natChars (n + 1) n

/-- `cloog_int_print` (include/cloog/int.h.in:80-88, 143). -/
def printInt (x : Int) : Str := if x < 0 then '-' :: printNat x.natAbs else printNat x.natAbs

/-- One row of `cloog_matrix_print_structure` with empty prefix and suffix
    (source/matrix.c:123-137). -/
def printRow (row : List Int) : Str := row.flatMap (fun x => printInt x ++ [' ']) ++ ['\n']

/-- `cloog_matrix_print` (source/matrix.c:143-151); all rows have `cols` entries. -/
def printMatrix (cols : Nat) (m : List (List Int)) : Str :=
  printNat m.length ++ [' '] ++ printNat cols ++ ['\n'] ++ m.flatMap printRow

end Verif.Matrix
