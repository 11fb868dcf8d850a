import Verif.Model.UnionDomain

/-!
# Importing an OpenScop scop

Model of `cloog_union_domain_from_osl_scop` (source/union_domain.c:317-366),
`cloog_input_from_osl_scop` (source/input.c:33-50), `cloog_options_copy_from_osl_scop`
(source/options.c:536-553) and the OpenScop branch of `cloog_input_read` (source/input.c:66-74).

The OpenScop library is outside: relations `R` are abstract, and so are the conversions of a relation to
a domain or a scattering (it is printed and read again by isl, source/isl/domain.c:680-685, 707-712) and
the normalisation of the scatterings.
-/

namespace Verif.OslImport
open Verif.Names Verif.UnionDomain

variable {R D S : Type}

/-- The part of `struct osl_statement` that is read (source/union_domain.c:346-349); `none` is a null
    pointer. -/
structure OStmt (R : Type) where
  dom : Option R
  scat : Option R

/-- The part of `struct osl_scop` that is read: the context, the strings of `parameters` if it has that
    URI, the statements, the names of the scatnames extension, the language. -/
structure Scop (R : Type) where
  context : Option R
  params : Option (List CStr)
  stmts : List (OStmt R)
  scatnames : Option (List CStr)
  language : Option CStr

/-- What is called outside: `nb_parameters` and `type == OSL_TYPE_SCATTERING` of a relation, the two
    conversions, the dimensions of a domain and a scattering, and `osl_scop_normalize_scattering`. -/
structure Ext (R D S : Type) where
  nbPar : R → Nat
  isScat : R → Bool
  toDom : R → D
  toScat : R → S
  dim : D → Nat
  sdim : S → Nat
  normalize : List (OStmt R) → List (OStmt R)

/-- How an import can end. -/
inductive Res (α : Type)
  | ok (a : α)
  /-- `cloog_die` in the union domain interface -/
  | die (e : Err)
  /-- `cloog_die` of `cloog_scattering_from_osl_relation` (source/isl/domain.c:704-705) -/
  | notScattering
  /-- a null pointer is used -/
  | crash
  deriving Repr

/-- Continue after success. -/
def Res.bind {α β : Type} : Res α → (α → Res β) → Res β
  | .ok a, f => f a
  | .die e, _ => .die e
  | .notScattering, _ => .notScattering
  | .crash, _ => .crash

/-- A call of the union domain interface. -/
def ofCall {α : Type} : Except Err α → Res α
  | .ok a => .ok a
  | .error e => .die e

/-- The loop setting the parameter names (source/union_domain.c:333-336), from position `i`. -/
def setParams (i : Nat) : List CStr → UD D S Unit → Res (UD D S Unit)
  | [], ud => .ok ud
  | s :: ss, ud => (ofCall (setName (some .param) i s ud)).bind (setParams (i + 1) ss)

/-- `cloog_scattering_from_osl_relation` (source/isl/domain.c:696-717). -/
def scatOf (x : Ext R D S) : Option R → Res (Option S)
  | none => .ok none
  | some r => if x.isScat r then .ok (some (x.toScat r)) else .notScattering

/-- One statement (source/union_domain.c:347-350).  A null relation gives a null domain
    (`cloog_domain_from_osl_relation`, source/isl/domain.c:672-688), whose dimension
    `cloog_union_domain_add_domain` asks for (source/union_domain.c:95): a crash here.  The scattering is
    converted before that. -/
def addStmt (x : Ext R D S) (s : OStmt R) (ud : UD D S Unit) : Res (UD D S Unit) :=
  (scatOf x s.scat).bind fun sc =>
    match s.dom with
    | none => .crash
    | some r => ofCall (addDomain x.dim x.sdim ⟨none, x.toDom r, sc, ()⟩ ud)

/-- The loop over the statements (source/union_domain.c:345-352). -/
def addStmts (x : Ext R D S) : List (OStmt R) → UD D S Unit → Res (UD D S Unit)
  | [], ud => .ok ud
  | s :: ss, ud => (addStmt x s ud).bind (addStmts x ss)

/-- The loop setting the names of the scattering dimensions (source/union_domain.c:357-361), from
    position `i`. -/
def setScats (i : Nat) : List CStr → UD D S Unit → Res (UD D S Unit)
  | [], ud => .ok ud
  | s :: ss, ud =>
    if i < ud.n .scat then (ofCall (setName (some .scat) i s ud)).bind (setScats (i + 1) ss) else .ok ud

/-- `nb_parameters` (source/union_domain.c:328). -/
def parCount (x : Ext R D S) (p : Scop R) : Nat :=
  match p.context with
  | none => 0
  | some r => x.nbPar r

/-- `cloog_union_domain_from_osl_scop` (source/union_domain.c:317-366). -/
def fromScop (x : Ext R D S) (p : Scop R) : Res (UD D S Unit) :=
  (setParams 0 (p.params.getD []) (alloc (parCount x p))).bind fun ud =>
    (addStmts x (x.normalize p.stmts) ud).bind fun ud =>
      setScats 0 (p.scatnames.getD []) ud

/-- `cloog_input_from_osl_scop` (source/input.c:33-50) for a scop: the context (null without a context
    relation) and the union domain. -/
def inputFromScop (x : Ext R D S) (p : Scop R) : Res (Option D × UD D S Unit) :=
  (fromScop x p).bind fun ud => .ok (p.context.map x.toDom, ud)

/-- "FORTRAN" (source/options.c:543). -/
def fortranName : CStr := [70, 79, 82, 84, 82, 65, 78]

/-- `cloog_options_copy_from_osl_scop` (source/options.c:536-553): does the language become Fortran?
    `strcmp` with a null pointer crashes. -/
def languageOf (p : Scop R) : Res Bool :=
  match p.language with
  | none => .crash
  | some l => .ok (l = fortranName)

/-- `cloog_program_read` with option -openscop up to the union domain (source/input.c:66-74,
    source/program.c:973-974): no scop (reading failed) leaves a null input, which is then read. -/
def readOpenScop (x : Ext R D S) : Option (Scop R) → Res (Option D × UD D S Unit × Bool)
  | none => .crash
  | some p => (inputFromScop x p).bind fun i => (languageOf p).bind fun f => .ok (i.1, i.2, f)

end Verif.OslImport
