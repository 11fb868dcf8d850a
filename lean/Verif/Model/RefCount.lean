import Mathlib.Logic.Function.Basic

/-!
# Reference counting

Model of the reference counted objects: blocks (source/block.c), strides (source/stride.c) and name
tables (source/names.c), and of the loops that hold references to blocks and strides
(source/loop.c).  Memory is a heap of objects with addresses; the use of an address without an object
is undefined behaviour (`none`).  `malloc` does not fail.
-/

namespace Verif.RefCount

/-- The three kinds of reference counted objects. -/
inductive Kind | block | stride | names
  deriving DecidableEq

/-- When an object is released, for the value of the counter after the decrement:
    `references == 0` for blocks (source/block.c:205), `!(references > 0)` for strides
    (source/stride.c:62-63), `!(--references)` for name tables (source/names.c:212). -/
def releases : Kind → Int → Bool
  | .block, r => decide (r = 0)
  | .stride, r => !decide (r > 0)
  | .names, r => decide (r = 0)

/-- An object: the counter and the statements a block owns (source/block.c; strides and name tables
    own no counted objects). -/
structure Obj where
  refs : Int
  stmts : List Nat

/-- The heap, the next fresh address, the leak counters of `CloogState` for blocks
    (source/block.c:63-74), the addresses that were given to `free` and the statements that were freed,
    most recent first. -/
structure St where
  heap : Nat → Option Obj
  next : Nat
  allocated : Int
  freed : Int
  max : Int
  released : List Nat
  stmtsFreed : List Nat

/-- Nothing allocated yet. -/
def init : St := ⟨fun _ => none, 0, 0, 0, 0, [], []⟩

/-- `cloog_block_malloc` and `cloog_block_alloc` with `cloog_block_leak_up` (source/block.c:63-68,
    249-302); `cloog_stride_malloc` (source/stride.c:6-21).  The counter starts at 1. -/
def alloc (stmts : List Nat) (s : St) : St :=
  { s with
    heap := Function.update s.heap s.next (some ⟨1, stmts⟩)
    next := s.next + 1
    allocated := s.allocated + 1
    max := if s.allocated + 1 - s.freed > s.max then s.allocated + 1 - s.freed else s.max }

/-- `cloog_block_copy` (source/block.c:358-364), `cloog_block_list_alloc` (source/block.c:338-349),
    `cloog_stride_copy` (source/stride.c:47-54), `cloog_names_copy` (source/names.c:246-251), for a
    pointer that is not null. -/
def copy (a : Nat) (s : St) : Option St :=
  match s.heap a with
  | none => none
  | some o => some { s with heap := Function.update s.heap a (some { o with refs := o.refs + 1 }) }

/-- `cloog_block_free` (source/block.c:199-218) with `cloog_block_leak_down` and
    `cloog_statement_free`, `cloog_stride_free` (source/stride.c:56-70), `cloog_names_free`
    (source/names.c:209-240), for a pointer that is not null. -/
def free (k : Kind) (a : Nat) (s : St) : Option St :=
  match s.heap a with
  | none => none
  | some o =>
    if releases k (o.refs - 1) then
      some { s with
        heap := Function.update s.heap a none
        freed := s.freed + 1
        released := a :: s.released
        stmtsFreed := o.stmts ++ s.stmtsFreed }
    else some { s with heap := Function.update s.heap a (some { o with refs := o.refs - 1 }) }

/-- `cloog_block_merge` (source/block.c:375-395): the statements of `b` go to the end of those of `a`,
    then `b` is freed.  Merging a block with itself makes a cyclic list and is not modelled. -/
def merge (a b : Nat) (s : St) : Option St :=
  match s.heap a, s.heap b with
  | some o, some q =>
    if a = b then none
    else free .block b { s with
      heap := Function.update (Function.update s.heap a (some { o with stmts := o.stmts ++ q.stmts }))
        b (some { q with stmts := [] }) }
  | _, _ => none

/-- A call of the interface. -/
inductive Call
  | alloc (stmts : List Nat)
  | copy (a : Nat)
  | free (a : Nat)
  | merge (a b : Nat)

/-- The effect of a call. -/
def step (k : Kind) : Call → St → Option St
  | .alloc ss, s => some (alloc ss s)
  | .copy a, s => copy a s
  | .free a, s => free k a s
  | .merge a b, s => merge a b s

/-- The effect of a sequence of calls. -/
def run (k : Kind) : List Call → St → Option St
  | [], s => some s
  | c :: cs, s => (step k c s).bind (run k cs)

/-! ## Loops -/

/-- `struct cloogloop` (include/cloog/loop.h): the addresses of the block and the stride (`none`: null
    pointer), the inner loops; `next` is the list structure. -/
inductive Tree
  | mk (block stride : Option Nat) (inner : List Tree)

mutual
/-- The calls on blocks made by `cloog_loop_copy` (source/loop.c:496-512) for one loop. -/
def copyBlocks : Tree → List Call
  | .mk b _ inner => (b.toList.map .copy) ++ copyBlocksL inner
/-- The same for a list. -/
def copyBlocksL : List Tree → List Call
  | [] => []
  | t :: ts => copyBlocks t ++ copyBlocksL ts
end

mutual
/-- The calls on strides made by `cloog_loop_copy` through `cloog_loop_alloc` (source/loop.c:426-441,
    496-512). -/
def copyStrides : Tree → List Call
  | .mk _ st inner => (st.toList.map .copy) ++ copyStridesL inner
/-- The same for a list. -/
def copyStridesL : List Tree → List Call
  | [] => []
  | t :: ts => copyStrides t ++ copyStridesL ts
end

mutual
/-- The calls on blocks made by `cloog_loop_free` (source/loop.c:257-274). -/
def freeBlocks : Tree → List Call
  | .mk b _ inner => (b.toList.map .free) ++ freeBlocksL inner
/-- The same for a list. -/
def freeBlocksL : List Tree → List Call
  | [] => []
  | t :: ts => freeBlocks t ++ freeBlocksL ts
end

mutual
/-- The calls on strides made by `cloog_loop_free` (source/loop.c:257-274): after the inner loops. -/
def freeStrides : Tree → List Call
  | .mk _ st inner => freeStridesL inner ++ (st.toList.map .free)
/-- The same for a list. -/
def freeStridesL : List Tree → List Call
  | [] => []
  | t :: ts => freeStrides t ++ freeStridesL ts
end

end Verif.RefCount
