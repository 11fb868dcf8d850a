import Verif.Model.LoopSem
import Verif.Model.Clast

/-!
# A second concrete domain type for examples

Sets of points that only look at the first `dim` coordinates, each of them clamped to `0..4`; they are
closed under all operations, including extension by further dimensions.  Values from 1 to 3 are exact; 0
stands for all values below and 4 for all values above.  This is not a model of code in /repo: it shows
that the assumptions on the domain operations (`GenLaws`) can be met and provides concrete inputs.
-/

namespace Verif.BoxDom

open Verif.Loop

/-- A union of sets of clamped vectors of length `dim`. -/
structure BD where
  dim : Nat
  parts : List (List (List Int))
deriving DecidableEq

/-- Clamp to `0..4`. -/
def clamp (v : Int) : Int := max 0 (min v 4)

/-- All clamped vectors of length `n`. -/
def univ : Nat → List (List Int)
  | 0 => [[]]
  | n + 1 => (univ n).flatMap (fun v => [v ++ [0], v ++ [1], v ++ [2], v ++ [3], v ++ [4]])

/-- The clamped vector of a point. -/
def code (n : Nat) (x : Pt) : List Int := (List.range n).map (fun i => clamp (x i))

/-- All vectors of a set. -/
def BD.all (d : BD) : List (List Int) := d.parts.flatten

/-- Membership of a point; there are no parameters. -/
def mem (d : BD) (px : Unit × Pt) : Prop := code d.dim px.2 ∈ d.all

/-- Membership of a vector with at least `dim` entries. -/
def BD.has (d : BD) (v : List Int) : Bool := decide (v.take d.dim ∈ d.all)

/-- Add unconstrained dimensions. -/
def BD.lift (d : BD) (n : Nat) : BD :=
  if n = d.dim then d
  else ⟨n, d.parts.map (fun q => (univ n).filter (fun v => decide (v.take d.dim ∈ q)))⟩

/-- Filter the parts and drop the empty ones. -/
def BD.filter (d : BD) (p : List Int → Bool) : BD :=
  ⟨d.dim, (d.parts.map (fun q => q.filter p)).filter (fun q => !q.isEmpty)⟩

/-- `x ≤ y` for all values with these clamped values. -/
def le (v w : Int) : Bool := decide (v < w) || (decide (v = w) && decide (0 < v) && decide (v < 4))

/-- Compare the coordinate of `level` of all pairs of vectors with the same outer coordinates. -/
def cmpAll (r : Int → Int → Bool) (a b : BD) (level : Nat) : Bool :=
  decide (level ≤ a.dim) && decide (level ≤ b.dim) &&
    a.all.all (fun v => b.all.all (fun w => !(v.take (level - 1) == w.take (level - 1)) ||
      r (v.getD (level - 1) 0) (w.getD (level - 1) 0)))

/-- Sort positions by repeatedly taking the first one that can precede all others. -/
def sortFrom (ds : List BD) (level : Nat) : Nat → List Nat → List Nat
  | 0, l => l
  | n + 1, l =>
    match l.find? (fun i => l.all (fun j => i == j ||
        cmpAll le (ds.getD i ⟨0, []⟩) (ds.getD j ⟨0, []⟩) level)) with
    | none => l
    | some i => i :: sortFrom ds level n (l.erase i)

/-- Is this a sound order? -/
def sorted (ds : List BD) (level : Nat) : List Nat → Bool
  | [] => true
  | i :: l => l.all (fun j => cmpAll le (ds.getD i ⟨0, []⟩) (ds.getD j ⟨0, []⟩) level) &&
      sorted ds level l

/-- The modulus and the residue of the values at a level: 2 and 1 if all of them are 1 or 3. -/
def residue (d : BD) (level : Nat) : Int × Int :=
  if 0 < level ∧ level ≤ d.dim ∧
      d.all.all (fun v => v.getD (level - 1) 0 == 1 || v.getD (level - 1) 0 == 3) = true then (2, 1)
  else (1, 0)

/-- A stride is a pair of a step and an offset. -/
def strideOk (level : Nat) (s : Int × Int) (px : Unit × Pt) : Prop := px.2 (level - 1) % s.1 = s.2

/-- The operations. -/
def ops : DomOps BD (Int × Int) Unit where
  dim := BD.dim
  isConvex d := decide (d.parts.length ≤ 1)
  isEmpty d := (univ d.dim).all (fun v => decide (v ∉ d.all))
  neverIntegral d := (univ d.dim).all (fun v => decide (v ∉ d.all))
  simplifyUnion d := d
  cutFirst d := (⟨d.dim, d.parts.take 1⟩, ⟨d.dim, d.parts.drop 1⟩)
  inter a b := (a.lift (max a.dim b.dim)).filter b.has
  union a b := ⟨max a.dim b.dim, (a.lift (max a.dim b.dim)).parts ++ (b.lift (max a.dim b.dim)).parts⟩
  diff a b := (a.lift (max a.dim b.dim)).filter (fun v => !b.has v)
  empty d := ⟨d.dim, []⟩
  lazyEqual a b := decide (a = b)
  lazyDisjoint a b := a.all.isEmpty || b.all.isEmpty
  convex d := ⟨d.dim, [d.all]⟩
  simpleConvex d := ⟨d.dim, [d.all]⟩
  isBounded _ _ := true
  boundSplitter d _ := ⟨d.dim, [univ d.dim]⟩
  extend d n := if d.dim ≤ n then d.lift n else d
  project d l := ⟨l, d.parts.map (fun q => (q.map (List.take l)).eraseDups)⟩
  gist a c := if c.dim = a.dim ∧ c.all.all a.has = true then ⟨a.dim, [univ a.dim]⟩
    else if c.dim = a.dim then a.filter c.has else a
  sort ds level :=
    if (sortFrom ds level ds.length (List.range ds.length)).isPerm (List.range ds.length) = true ∧
        sorted ds level (sortFrom ds level ds.length (List.range ds.length)) = true then
      some (sortFrom ds level ds.length (List.range ds.length))
    else none
  follows a b level :=
    if cmpAll (fun v w => decide (v < w)) a b level then -1
    else if cmpAll le a b level then 0 else 1
  lazyIsConstant d i :=
    match d.all with
    | [] => none
    | v :: vs => if vs.all (fun w => w.getD i 0 == v.getD i 0) then some (v.getD i 0) else none
  canStride d level := decide (level ≤ d.dim)
  listStride _ _ := none
  stride d level := residueStride (residue d level).1 (residue d level).2
  mkStride s off := (s, off)
  strideLowerBound d _ _ := d
  addStride d _ := d
  isOtl _ _ := false
  canUnroll d level :=
    if level ≤ d.dim ∧
        d.all.all (fun v => decide (0 < v.getD (level - 1) 0) && decide (v.getD (level - 1) 0 < 4)) = true
    then some (3, ()) else none
  fixedOffset d level _ k := d.filter (fun v => decide (v.getD (level - 1) 0 = 1 + k))
  icmp := Clast.gmpCmp

end Verif.BoxDom
