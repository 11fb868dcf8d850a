import Verif.Model.Loop

/-!
# A concrete domain type for examples

Finite sets of integer vectors, as a list of parts; a "convex" domain is one with at most one part.
The first coordinates of a vector are the iterators; there are no parameters.  This is not a model of
code in /repo: it shows that the assumptions on the domain operations can be met and provides concrete
inputs.
-/

namespace Verif.FinDom

open Verif.Loop

/-- A finite union of finite sets of vectors of length `dim`. -/
structure FD where
  dim : Nat
  parts : List (List (List Int))
deriving DecidableEq

/-- All vectors. -/
def FD.all (d : FD) : List (List Int) := d.parts.flatten

/-- Membership. -/
def mem (d : FD) (x : List Int) : Prop := x ∈ d.all

/-- Filter the parts and drop the empty ones. -/
def FD.filter (d : FD) (p : List Int → Bool) : FD :=
  { d with parts := (d.parts.map (fun q => q.filter p)).filter (fun q => !q.isEmpty) }

/-- Sort and remove duplicates (for one-dimensional comparisons). -/
def dedup (l : List (List Int)) : List (List Int) := l.eraseDups

/-- The values of coordinate `level` below a common prefix. -/
def before (a b : FD) (level : Nat) : Bool :=
  a.all.any (fun v => b.all.any (fun w =>
    v.take (level - 1) == w.take (level - 1) && decide (v.getD (level - 1) 0 < w.getD (level - 1) 0)))

/-- Sort positions by repeatedly taking the first one that nothing else must precede. -/
def sortFrom (ds : List FD) (level : Nat) : Nat → List Nat → List Nat
  | 0, l => l
  | n + 1, l =>
    match l.find? (fun i => l.all (fun j => i == j ||
        !(before (ds.getD j ⟨0, []⟩) (ds.getD i ⟨0, []⟩) level))) with
    | none => l
    | some i => i :: sortFrom ds level n (l.erase i)

/-- The operations.  Strides and constraints are not used. -/
def ops : DomOps FD Unit Unit where
  dim := FD.dim
  isConvex d := decide (d.parts.length ≤ 1)
  isEmpty d := d.all.isEmpty
  neverIntegral d := d.all.isEmpty
  simplifyUnion d := d
  cutFirst d := ({ d with parts := d.parts.take 1 }, { d with parts := d.parts.drop 1 })
  inter a b := a.filter (fun x => decide (x ∈ b.all))
  union a b := { a with parts := a.parts ++ b.parts }
  diff a b := a.filter (fun x => decide (x ∉ b.all))
  empty d := { d with parts := [] }
  lazyEqual a b := decide (a = b)
  lazyDisjoint a b := a.all.isEmpty || b.all.isEmpty
  convex d := { d with parts := [d.all] }
  simpleConvex d := { d with parts := [d.all] }
  isBounded _ _ := true
  boundSplitter d _ := d
  extend d _ := d
  project d l := { dim := l, parts := d.parts.map (fun q => dedup (q.map (List.take l))) }
  gist a _ := a
  sort ds level := some (sortFrom ds level ds.length (List.range ds.length))
  follows a b level :=
    if a.all.any (fun v => b.all.any (fun w => v.take (level - 1) == w.take (level - 1) &&
        decide (w.getD (level - 1) 0 < v.getD (level - 1) 0))) then 1
    else if a.all.any (fun v => b.all.any (fun w => v.take (level - 1) == w.take (level - 1) &&
        decide (w.getD (level - 1) 0 = v.getD (level - 1) 0))) then 0
    else -1
  lazyIsConstant d i :=
    match d.all with
    | [] => none
    | v :: vs => if vs.all (fun w => w.getD i 0 == v.getD i 0) then some (v.getD i 0) else none
  canStride _ _ := false
  listStride _ _ := none
  stride _ _ := (1, 0)
  mkStride _ _ := ()
  strideLowerBound d _ _ := d
  addStride d _ := d
  isOtl _ _ := false
  canUnroll _ _ := none
  fixedOffset d _ _ _ := d
  icmp a b := if a < b then -1 else if a = b then 0 else 1

theorem mem_filter (d : FD) (p : List Int → Bool) (x : List Int) :
    mem (d.filter p) x ↔ mem d x ∧ p x = true := by
  unfold mem FD.all FD.filter
  simp only [List.mem_flatten, List.mem_filter, List.mem_map]
  constructor
  · rintro ⟨l, ⟨⟨q, hq, rfl⟩, _⟩, hx⟩
    rw [List.mem_filter] at hx
    exact ⟨⟨q, hq, hx.1⟩, hx.2⟩
  · rintro ⟨⟨q, hq, hx⟩, hp⟩
    have hx' : x ∈ q.filter p := List.mem_filter.2 ⟨hx, hp⟩
    refine ⟨q.filter p, ⟨⟨q, hq, rfl⟩, ?_⟩, hx'⟩
    cases h : q.filter p with
    | nil => rw [h] at hx'; simp at hx'
    | cons => simp

end Verif.FinDom
