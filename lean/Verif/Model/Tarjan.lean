import Mathlib.Data.List.Sort
import Mathlib.Logic.Function.Basic

/-!
# Detection of the components of a list of loops

`source/loop.c:2266-2512`: the Tarjan traversal of `cloog_loop_components_tarjan`, the driver loop
of `cloog_loop_generate_components` around it and the extraction of the components
(`sort_component`, `extract_component`).

The arrays `node`, `stack` and `order` are C arrays with `len`, `len` and `2 * len` elements.  A
write outside of them is undefined behaviour, which the model renders as `none`.  The result of
`follows (loop_array[i], loop_array[j], ..., i > j)` is the parameter `f i j`: the callback is
assumed to be a pure function of the two positions (it only reads the loops, and the default
argument is a function of the positions).
-/

namespace Verif.Tarjan

/-- `struct cloog_loop_sort_node` (`source/loop.c:2266-2270`). -/
structure Node where
  /-- order of the visit, `-1` when not visited yet -/
  index : Int
  minIndex : Int
  onStack : Bool

/-- `struct cloog_loop_sort` (`source/loop.c:2281-2289`).  `node` is a function (only positions
below `len` are ever used), `stack` is listed from the top (`sp` is its length) and `order` holds
the entries written so far (`op` is its length). -/
structure St where
  len : Nat
  node : Nat → Node
  stack : List Nat
  index : Nat
  order : List Int

/-- `cloog_loop_sort_alloc` (`source/loop.c:2293-2315`).  The fields `min_index` and `on_stack` are
left uninitialised by the code; the model gives them arbitrary values `junk`. -/
def alloc (len : Nat) (junk : Nat → Int × Bool) : St :=
  { len, node := fun i => ⟨-1, (junk i).1, (junk i).2⟩, stack := [], index := 0, order := [] }

/-- `s->node[i].min_index = m`. -/
def setMin (s : St) (i : Nat) (m : Int) : St :=
  { s with node := Function.update s.node i { s.node i with minIndex := m } }

/-- `source/loop.c:2369-2373`: number the node and push it. -/
def push (s : St) (i : Nat) : Option St :=
  if s.stack.length < s.len then
    some { s with
      node := Function.update s.node i ⟨s.index, s.index, true⟩
      index := s.index + 1
      stack := i :: s.stack }
  else none

/-- `s->order[s->op++] = v`. -/
def emit (s : St) (v : Int) : Option St :=
  if s.order.length < 2 * s.len then some { s with order := s.order ++ [v] } else none

/-- The `do ... while (j != i)` loop and the separator, `source/loop.c:2402-2407`.  The first
argument is the stack; popping the empty stack is a read of `stack[-1]`. -/
def popTo (i : Nat) : List Nat → St → Option St
  | [], _ => none
  | j :: st, s =>
    match emit { s with stack := st
                        node := Function.update s.node j { s.node j with onStack := false } } j with
    | none => none
    | some s' => if j = i then emit s' (-1) else popTo i st s'

/-- The body of the `for` loop for one `j` (`source/loop.c:2375-2397`); `rec` is the recursive call
on `j`. -/
def scanStep (f : Nat → Nat → Bool) (rec_ : Nat → St → Option St) (i j : Nat) (s : St) :
    Option St :=
  if j = i then some s
  else if 0 ≤ (s.node j).index ∧
      ((s.node j).onStack = false ∨ (s.node i).minIndex < (s.node j).index) then some s
  else if f i j = false then some s
  else if (s.node j).index < 0 then
    match rec_ j s with
    | none => none
    | some s' =>
      if (s'.node j).minIndex < (s'.node i).minIndex then
        some (setMin s' i (s'.node j).minIndex)
      else some s'
  else if (s.node j).index < (s.node i).minIndex then some (setMin s i (s.node j).index)
  else some s

/-- The `for (j = s->len - 1; j >= 0; --j)` loop (`source/loop.c:2375-2397`); the argument is
`j + 1`. -/
def scan (f : Nat → Nat → Bool) (rec_ : Nat → St → Option St) (i : Nat) :
    Nat → St → Option St
  | 0, s => some s
  | j + 1, s =>
    match scanStep f rec_ i j s with
    | none => none
    | some s' => scan f rec_ i j s'

/-- `cloog_loop_components_tarjan` (`source/loop.c:2361-2408`).  The first argument bounds the depth
of the recursion; running out of it is `none`, and `C21_components` shows that `len` is enough. -/
def tarjan (f : Nat → Nat → Bool) : Nat → Nat → St → Option St
  | 0, _, _ => none
  | fuel + 1, i, s =>
    match push s i with
    | none => none
    | some s1 =>
      match scan f (tarjan f fuel) i s1.len s1 with
      | none => none
      | some s2 =>
        if (s2.node i).index ≠ (s2.node i).minIndex then some s2 else popTo i s2.stack s2

/-- The driver loop `for (i = nb_loops - 1; i >= 0; --i)` (`source/loop.c:2485-2490`); the argument
is `i + 1`. -/
def drive (f : Nat → Nat → Bool) : Nat → St → Option St
  | 0, s => some s
  | i + 1, s =>
    if 0 ≤ (s.node i).index then drive f i s
    else
      match tarjan f s.len i s with
      | none => none
      | some s' => drive f i s'

/-- The scan for the `-1` that ends a component (`sort_component`, `source/loop.c:2419-2427` and
`extract_component`, `source/loop.c:2434-2447`): the entries before it and what comes after it.
Reading past the entries that were written is `none`. -/
def takeComp : List Int → Option (List Int × List Int)
  | [] => none
  | v :: l =>
    if v = -1 then some ([], l)
    else match takeComp l with
      | none => none
      | some (c, r) => some (v :: c, r)

/-- The extraction loop `while (nb_loops)` (`source/loop.c:2492-2503`): the sorted components in the
order in which they are handed to `cloog_loop_generate_general`.  `qsort` with `qsort_index_cmp`
(`source/loop.c:2411-2414`) is a sort by value; the entries are small non-negative numbers, so the
subtraction in the comparison cannot overflow.  The first argument bounds the number of rounds. -/
def extract : Nat → Nat → List Int → Option (List (List Int))
  | _, 0, _ => some []
  | 0, _ + 1, _ => none
  | fuel + 1, nb + 1, l =>
    match takeComp l with
    | none => none
    | some (c, r) =>
      match extract fuel (nb + 1 - c.length) r with
      | none => none
      | some cs => some (c.insertionSort (· ≤ ·) :: cs)

/-- The part of `cloog_loop_generate_components` that forms the components
(`source/loop.c:2484-2503`), for `n` loops. -/
def components (f : Nat → Nat → Bool) (n : Nat) (junk : Nat → Int × Bool) :
    Option (List (List Int)) :=
  match drive f n (alloc n junk) with
  | none => none
  | some s => extract n n s.order

end Verif.Tarjan
