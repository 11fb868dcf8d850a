import Verif.Model.Loop
import Mathlib.Logic.Function.Basic

/-!
# What a tree of loops executes

The meaning of the lists of loops built by `source/loop.c`, for a fixed value of the parameters.  A
point is an infinite vector of integers; coordinate `L - 1` is the iterator of level `L`.  A domain of
dimension `n` only looks at the first `n` coordinates.

The code has no such interpreter: this is the reading of a loop list on which the property statements
rest (a loop at a level within its dimension scans the values of that iterator in increasing order,
`source/clast.c:1838-1908`; a loop at a deeper level is a guard around its statements).
-/

namespace Verif.Loop

/-- A point. -/
abbrev Pt := Nat → Int

/-- Set the iterator of level `L`. -/
def setAt (x : Pt) (L : Nat) (v : Int) : Pt := Function.update x (L - 1) v

/-- An instance: a block and the values of the iterators of its domain. -/
structure Inst where
  block : Block
  args : List Int
deriving DecidableEq

/-- The first `n` coordinates. -/
def argsOf (n : Nat) (x : Pt) : List Int := (List.range n).map x

variable {D S C : Type}

/-- What the semantics needs to know: the dimension of a domain, its points, and whether a value of
the iterator of a level is admitted by a stride. -/
structure Sem (D S : Type) where
  dim : D → Nat
  mem : D → Pt → Prop
  strideOk : Nat → S → Pt → Prop

/-- The points at which a loop at level `L` executes its body, coming from the point `x`. -/
def Visits (m : Sem D S) (L : Nat) (x : Pt) (d : D) (st : Option S) (y : Pt) : Prop :=
  if 0 < L ∧ L ≤ m.dim d then
    (∃ v, y = setAt x L v) ∧ m.mem d y ∧ ∀ s, st = some s → m.strideOk L s y
  else y = x ∧ m.mem d y

/-- The instance of the block of a loop at a point. -/
def BlockAt (m : Sem D S) (d : D) (b : Option Block) (y : Pt) (e : Inst) : Prop :=
  b = some e.block ∧ e.args = argsOf (m.dim d) y

mutual
/-- The loop executes the instance `e`. -/
def hasLoop (m : Sem D S) : Nat → Pt → Loop D S → Inst → Prop
  | L, x, .mk d _ st b inner, e =>
    ∃ y, Visits m L x d st y ∧ (BlockAt m d b y e ∨ hasLoops m (L + 1) y inner e)
/-- The list of loops executes the instance `e`. -/
def hasLoops (m : Sem D S) : Nat → Pt → List (Loop D S) → Inst → Prop
  | _, _, [], _ => False
  | L, x, l :: ls, e => hasLoop m L x l e ∨ hasLoops m L x ls e
end

mutual
/-- The loop executes `e` and, later, `f`. -/
def seqLoop (m : Sem D S) : Nat → Pt → Loop D S → Inst → Inst → Prop
  | L, x, .mk d _ st b inner, e, f =>
    (∃ y, Visits m L x d st y ∧
      ((BlockAt m d b y e ∧ hasLoops m (L + 1) y inner f) ∨ seqLoops m (L + 1) y inner e f)) ∨
    (∃ y z, Visits m L x d st y ∧ Visits m L x d st z ∧ y (L - 1) < z (L - 1) ∧
      (BlockAt m d b y e ∨ hasLoops m (L + 1) y inner e) ∧
      (BlockAt m d b z f ∨ hasLoops m (L + 1) z inner f))
/-- The list of loops executes `e` and, later, `f`. -/
def seqLoops (m : Sem D S) : Nat → Pt → List (Loop D S) → Inst → Inst → Prop
  | _, _, [], _, _ => False
  | L, x, l :: ls, e, f =>
    seqLoop m L x l e f ∨ (hasLoop m L x l e ∧ hasLoops m L x ls f) ∨ seqLoops m L x ls e f
end

/-! ## Execution traces -/

/-- The events of the block at a point. -/
def blockEvents (m : Sem D S) (d : D) (b : Option Block) (y : Pt) : List Inst :=
  match b with
  | none => []
  | some k => [⟨k, argsOf (m.dim d) y⟩]

mutual
/-- `TraceLoop m L x l tr`: executing the loop `l` at level `L` from the point `x` gives the list of
instances `tr`. -/
inductive TraceLoop (m : Sem D S) : Nat → Pt → Loop D S → List Inst → Prop
  | mk {L x d o st b inner ys tr} :
      (∀ y, y ∈ ys ↔ Visits m L x d st y) → ys.Pairwise (fun y z => y (L - 1) < z (L - 1)) →
      TracePoints m L d b inner ys tr → TraceLoop m L x (.mk d o st b inner) tr
/-- The body at a list of points. -/
inductive TracePoints (m : Sem D S) :
    Nat → D → Option Block → List (Loop D S) → List Pt → List Inst → Prop
  | nil {L d b inner} : TracePoints m L d b inner [] []
  | cons {L d b inner y ys t tr} : TraceLoops m (L + 1) y inner t →
      TracePoints m L d b inner ys tr →
      TracePoints m L d b inner (y :: ys) (blockEvents m d b y ++ t ++ tr)
/-- A list of loops. -/
inductive TraceLoops (m : Sem D S) : Nat → Pt → List (Loop D S) → List Inst → Prop
  | nil {L x} : TraceLoops m L x [] []
  | cons {L x l ls t tr} : TraceLoop m L x l t → TraceLoops m L x ls tr →
      TraceLoops m L x (l :: ls) (t ++ tr)
end

/-! ## The order of instances -/

/-- The time stamp of an instance from scattering position `flags` on: at a scalar position (`true`)
the next scalar value, at another position the next iterator; behind the scattering the remaining
iterators.  An instance without iterators left has no entry. -/
def interleave (scal : Nat → Int) : List Bool → Nat → List Int → List Int
  | [], _, cs => cs
  | true :: fs, k, cs => scal k :: interleave scal fs (k + 1) cs
  | false :: _, _, [] => []
  | false :: fs, k, c :: cs => c :: interleave scal fs k cs

/-- Lexicographic comparison up to the end of the shorter list. -/
def lexCmp : List Int → List Int → Ordering
  | [], _ => .eq
  | _ :: _, [] => .eq
  | a :: as, b :: bs => if a < b then .lt else if b < a then .gt else lexCmp as bs

/-- The time stamp of an instance, for the scalar positions `flags`. -/
def timeOf (flags : List Bool) (e : Inst) : List Int :=
  interleave (fun i => e.block.scal.getD i 0) flags 0 e.args

end Verif.Loop
