import Verif.Model.Options

/-!
# Warnings

The warnings printed while options and input are read and the program is made.  A message is given by what it
says; the texts are not modelled.
-/

namespace Verif.Messages
open Verif.Options

/-- `enum cloog_msg_type` (include/cloog/options.h:135). -/
inductive Ty
  | error
  | warning
  | info
  deriving DecidableEq, Repr

/-- The messages of the modelled functions (source/options.c:500; source/union_domain.c:281;
    source/program.c:1047, 1059, 1076, 1394, 1397). -/
inductive Msg
  | unknownOption (a : Str)
  | similar
  | override
  | lastRaised
  | lastReset
  | notEach
  | notEnough (n : Nat)
  deriving DecidableEq, Repr

/-- `cloog_vmsg` (source/options.c:58-81): the messages printed to the standard error stream.  `quiet` is
    `none` if the options are the null pointer. -/
def vmsg {α : Type} (quiet : Option Int) (t : Ty) (msg : α) : List α :=
  match quiet with
  | some q => if q ≠ 0 ∧ (t = .warning ∨ t = .info) then [] else [msg]
  | none => [msg]

/-- The inner loop of `cloog_scattering_list_lazy_same` (source/isl/domain.c:1353-1357). -/
def sameAs {S : Type} (eq : S → S → Bool) (one : S) : List S → Bool
  | [] => false
  | other :: rest => if eq one other then true else sameAs eq one rest

/-- `cloog_scattering_list_lazy_same` (source/isl/domain.c:1346-1360); `eq` is `isl_map_plain_is_equal`. -/
def lazySame {S : Type} (eq : S → S → Bool) : List S → Bool
  | [] => false
  | one :: rest => if sameAs eq one rest then true else lazySame eq rest

/-- The warning of `cloog_union_domain_read` (source/union_domain.c:276-281). -/
def readMsgs {S : Type} (quiet : Int) (eq : S → S → Bool) (ss : List S) : List Msg :=
  if lazySame eq ss then vmsg (some quiet) .warning .similar else []

/-- The loop of `cloog_program_scatter` (source/program.c:1379-1391), without the scattering itself: what is
    left of both lists, and the number of scatterings that are not functions. -/
def scatterLoop {D S : Type} (full : S → Bool) : List D → List S → Nat → List D × List S × Nat
  | _ :: ds, s :: ss, k => scatterLoop full ds ss (if full s then k else k + 1)
  | ds, ss, k => (ds, ss, k)

/-- The warnings of `cloog_program_scatter` (source/program.c:1362-1399) for a list of loops that is not empty;
    the first round is taken as a round of the loop.  Nothing is done without scatterings. -/
def scatterMsgs {D S : Type} (quiet : Int) (full : S → Bool) (ds : List D) (ss : List S) : List Msg :=
  match ss with
  | [] => []
  | _ :: _ =>
    let r := scatterLoop full ds ss 0
    (if !r.1.isEmpty || !r.2.1.isEmpty then vmsg (some quiet) .warning .notEach else []) ++
    (if r.2.2 ≠ 0 then vmsg (some quiet) .warning (.notEnough r.2.2) else [])

/-- The start of `cloog_program_generate` (source/program.c:1044-1083): the option `-l` afterwards and the
    warnings.  `Verif.Options.fixLast` is the same without the warnings. -/
def fixLastMsgs (quiet override f l n : Int) : Int × List Msg :=
  if override ≠ 0 then (l, vmsg (some quiet) .warning .override)
  else
    let a : Int × List Msg := if n > l ∧ l ≥ 0 then (n, vmsg (some quiet) .warning .lastRaised) else (l, [])
    if (f > 1 ∨ f < 0) ∧ (a.1 > n ∨ a.1 < 0) then (n, a.2 ++ vmsg (some quiet) .warning .lastReset)
    else a

/-- The warnings of `cloog_options_read` (source/options.c:386-528), in the rounds of
    `Verif.Options.readArgs`, up to the first error. -/
def argMsgs (w : World) : List Str → St → List Msg
  | [], _ => []
  | a :: rest, st =>
    if a.head? = some '-' then
      match numKey a with
      | some k =>
        match rest with
        | [] => []
        | v :: rest' =>
          argMsgs w rest' { st with opts := Function.update st.opts k (toInt (strtol v)) }
      | none =>
        if a = "-openscop".toList then
          if w.osl then argMsgs w rest { st with opts := Function.update st.opts .openscop 1 }
          else []
        else
          match flagKeys a with
          | some kvs => argMsgs w rest { st with opts := setAll kvs st.opts }
          | none =>
            if isInfo a then argMsgs w rest { st with infos := true }
            else if a = "-o".toList then
              match rest with
              | [] => []
              | v :: rest' =>
                if v = "stdout".toList then argMsgs w rest' { st with output := none }
                else if w.writable v then argMsgs w rest' { st with output := some v }
                else []
            else vmsg (some (st.opts .quiet)) .warning (.unknownOption a) ++ argMsgs w rest st
    else
      match st.input with
      | none =>
        if a = "stdin".toList ∨ w.readable a = true then
          argMsgs w rest { st with input := some a }
        else []
      | some _ => []

end Verif.Messages
