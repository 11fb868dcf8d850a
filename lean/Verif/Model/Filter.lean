import Mathlib.Data.List.Basic

/-!
# Collecting loops and statements of a clast

Model of `clast_filter` and its helpers (source/clast.c:1963-2149).  A statement list is the chain of
`next` pointers.  A for loop carries a number standing for its address.
-/

namespace Verif.Filter

/-- `struct clast_stmt` (include/cloog/clast.h:62-118) with the parts `clast_filter` reads. -/
inductive Node
  | root
  | assign
  | user (number : Int)
  | block (body : List Node)
  | loop (id : Nat) (iter : String) (body : List Node)
  | guard (thn : List Node)

/-- `ClastFilterType` (include/cloog/clast.h:167). -/
inductive FType
  | exact
  | subset
  deriving DecidableEq

/-- `ClastFilter` (include/cloog/clast.h:169-174); `none` is the null pointer. -/
structure Filt where
  iter : Option String
  stmts : Option (List Int)
  ty : FType

/-- `add_if_new` (source/clast.c:1964-1981). -/
def addIfNew {α : Type} [DecidableEq α] (l : List α) (a : α) : List α :=
  if a ∈ l then l else l ++ [a]

/-- `concat_if_new` (source/clast.c:1986-1996). -/
def concatIfNew {α : Type} [DecidableEq α] (l m : List α) : List α := m.foldl addIfNew l

/-- `list_compare` (source/clast.c:2002-2020). -/
def listCompare (l m : List Int) : Int :=
  if l.all fun a => decide (a ∈ m) then (if l.length = m.length then 0 else -1) else 1

/-- The condition at source/clast.c:2127-2132. -/
def wants (f : Filt) (iter : String) (stmts : List Int) : Bool :=
  (match f.iter with
    | none => true
    | some i => decide (iter = i)) &&
  (match f.stmts with
    | none => true
    | some fs => (decide (f.ty = .subset) && decide (listCompare stmts fs ≤ 0)) ||
        (decide (f.ty = .exact) && decide (listCompare stmts fs = 0)))

/-- Both results of `clast_filter`: loops and statement numbers. -/
structure Res where
  loops : List Nat
  stmts : List Int
  deriving DecidableEq

/-- Concatenation of the results of a recursive call (for instance source/clast.c:2081-2083). -/
def Res.concat (r s : Res) : Res := ⟨concatIfNew r.loops s.loops, concatIfNew r.stmts s.stmts⟩

mutual
/-- `clast_filter` (source/clast.c:2054-2149) on a statement list.  A node that is an assignment or a
    block is treated by none of the cases: the call returns nothing, and the rest of the list is not
    visited. -/
def filter (f : Filt) : List Node → Res
  | [] => ⟨[], []⟩
  | n :: rest => filterNode f n (filter f rest)

/-- One node, given the results for the rest of its list. -/
def filterNode (f : Filt) : Node → Res → Res
  | .root, next => Res.concat ⟨[], []⟩ next
  | .assign, _ => ⟨[], []⟩
  | .block _, _ => ⟨[], []⟩
  | .user k, next => Res.concat ⟨[], addIfNew [] k⟩ next
  | .guard thn, next => ((Res.concat ⟨[], []⟩ (filter f thn)).concat next)
  | .loop id iter body, next =>
    let b := filter f body
    let r := Res.concat ⟨[], []⟩ b
    let r := if wants f iter b.stmts then { r with loops := addIfNew r.loops id } else r
    r.concat next
end

end Verif.Filter
