import Mathlib.Data.List.Basic
import Mathlib.Data.List.Perm.Basic

/-!
# `cloog_domain_sort` (source/isl/domain.c:234-308)

The domains enter only through the sign of `isl_basic_set_compare_at(doms[i], doms[j], level-1)`,
given here as `cmp i j` (isl is external).
-/

namespace Verif.DomainSort

/-- The matrix `follows`. -/
abbrev Mat := Nat → Nat → Bool

/-- source/isl/domain.c:262-287, body of the loops for one pair `j < i`. -/
def pairStep (cmp : Nat → Nat → Int) (i j : Nat) (f : Mat) : Mat :=
  if f i j || f j i then f
  else if cmp i j = 0 then f
  else if 0 < cmp i j then
    fun a b => if a = i then (b == j) || f i b || (decide (b < i) && f j b) else f a b
  else
    fun a b => if b = i then (a == j) || f a i || (decide (a < i) && f a j) else f a b

/-- source/isl/domain.c:263-287, the inner loop `for (j = 0; j < i; ++j)`, up to `j = m`. -/
def rowLoop (cmp : Nat → Nat → Int) (i : Nat) : Nat → Mat → Mat
  | 0, f => f
  | m + 1, f => pairStep cmp i m (rowLoop cmp i m f)

/-- source/isl/domain.c:262-287, the outer loop, up to `i = n`; the matrix starts all zero (254-260). -/
def build (cmp : Nat → Nat → Int) : Nat → Mat
  | 0 => fun _ _ => false
  | n + 1 => rowLoop cmp n n (build cmp n)

/-- Is some entry of row `j` set? (source/isl/domain.c:290-294) -/
def rowSet (n : Nat) (f : Mat) (j : Nat) : Bool := (List.range n).any (fun k => f j k)

/-- source/isl/domain.c:295-297: clear column `j` and mark `j` as done. -/
def retire (f : Mat) (j : Nat) : Mat := fun a b => if b = j then decide (a = j) else f a b

/-- source/isl/domain.c:289-300: the selection loop; `out` lists the indices output so far and `fuel`
bounds the number of iterations (`none`: still running). -/
def select (n : Nat) : Nat → Mat → Nat → List Nat → Option (List Nat)
  | 0, _, _, out => if n ≤ out.length then some out else none
  | fuel + 1, f, j, out =>
    if n ≤ out.length then some out
    else if rowSet n f j then select n fuel f ((j + 1) % n) out
    else select n fuel (retire f j) ((j + 1) % n) (out ++ [j])

/-- source/isl/domain.c:234-308 `cloog_domain_sort`: `permut` (positions are 1-based) after at most
`fuel` iterations of the selection loop. -/
def domainSort (cmp : Nat → Nat → Int) (n fuel : Nat) : Option (List Nat) :=
  (select n fuel (build cmp n) 0 []).map (List.map (· + 1))

end Verif.DomainSort
