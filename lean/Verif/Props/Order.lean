import Verif.Lemmas.Order
import Verif.Props.ClastExec
import Mathlib.Data.List.Permutation

/-!
# The order of constraints and of sorting (C82)

A domain is a set: the order in which isl lists its constraints means nothing, and neither does the algorithm
behind the C library's `qsort`. So neither should be seen in the generated code. `Sorts` says what the C standard
says of `qsort`, with nothing about elements that compare as equal or comparisons that are not consistent.

* `C82_bounds`: the bounds of loops depend on neither.
* `C82_tree_partial`: nor does the program made from a tree of loops, if (a) no two constraints define the same
  iterator, (b) no variable has both an equality and an inequality that make conditions of one guard, and (c) all
  variables have different names. What is missing is the general statement; by `C82_cycle` and `C82_first` it is
  false without (b) and without (a).
* `C82_cycle`: without (b) the comparison given to `qsort` may go round in a circle, and the order of the
  constraints is seen in the code.
* `C82_first`: with two equalities for an iterator the first is used. (isl itself never gives two.)
-/

namespace Verif.Props.Order
open Verif.Clast Verif.ClastGen Verif.GuardSort Verif.Order Verif.Bound Verif.IntOps
open Verif.Props.Expr Verif.Props.ClastExec

/-! ## A sort -/

variable {icmp : Int → Int → Int}

theorem insert_perm {α : Type} (p : α → Bool) (e : α) (l : List α) : (l.takeWhile p ++ e :: l.dropWhile p).Perm (e :: l) := by
  refine List.perm_middle.trans ?_
  rw [List.takeWhile_append_dropWhile]

/-- Insertion sort is a sort. -/
theorem insSort_sorts {α : Type} (cmp : α → α → Int) : Sorts cmp (insSort cmp) := by
  intro l
  induction l with
  | nil => exact ⟨List.Perm.refl _, fun _ => List.Pairwise.nil⟩
  | cons e l ih =>
    obtain ⟨hp, hs⟩ := ih
    have hcons : insSort cmp (e :: l) = (insSort cmp l).takeWhile (fun x => cmp x e < 0) ++
        e :: (insSort cmp l).dropWhile (fun x => cmp x e < 0) := rfl
    rw [hcons]
    refine ⟨(insert_perm _ e _).trans (hp.cons e), fun hc => ?_⟩
    have hs := hs ⟨fun a ha => hc.refl a (List.mem_cons_of_mem _ ha),
      fun a ha b hb => hc.swap a (List.mem_cons_of_mem _ ha) b (List.mem_cons_of_mem _ hb),
      fun a ha b hb c hc' => hc.trans a (List.mem_cons_of_mem _ ha) b (List.mem_cons_of_mem _ hb) c (List.mem_cons_of_mem _ hc')⟩
    have mem : ∀ x ∈ insSort cmp l, x ∈ e :: l := fun x hx => List.mem_cons_of_mem _ (hp.mem_iff.1 hx)
    generalize insSort cmp l = m at hs mem
    clear hcons hp
    induction m with
    | nil => exact List.pairwise_singleton _ _
    | cons x m ih =>
      have hx := mem x List.mem_cons_self
      rw [List.pairwise_cons] at hs
      by_cases hlt : cmp x e < 0
      · rw [List.takeWhile_cons_of_pos (by simpa using hlt), List.dropWhile_cons_of_pos (by simpa using hlt), List.cons_append,
          List.pairwise_cons]
        refine ⟨fun y hy => ?_, ih hs.2 (fun y hy => mem y (List.mem_cons_of_mem _ hy))⟩
        rcases List.mem_cons.1 ((insert_perm _ e m).mem_iff.1 hy) with rfl | hy
        · omega
        · exact hs.1 y hy
      · rw [List.takeWhile_cons_of_neg (by simpa using hlt), List.dropWhile_cons_of_neg (by simpa using hlt), List.nil_append,
          List.pairwise_cons]
        have hex : cmp e x ≤ 0 := by
          have := (hc.swap x hx e List.mem_cons_self)
          have := (hc.swap e List.mem_cons_self x hx)
          omega
        refine ⟨fun y hy => ?_, List.pairwise_cons.2 hs⟩
        rcases List.mem_cons.1 hy with rfl | hy
        · exact hex
        · exact hc.trans e List.mem_cons_self x hx y (mem y (List.mem_cons_of_mem _ hy)) hex (hs.1 y hy)

/-- And so is the insertion sort of the reversed list. -/
theorem rev_sorts {α : Type} (cmp : α → α → Int) : Sorts cmp (fun l => insSort cmp l.reverse) := fun l =>
  ⟨(insSort_sorts cmp _).1.trans (List.reverse_perm l),
    fun hc => (insSort_sorts cmp _).2 (hc.perm (List.reverse_perm l).symm)⟩

/-- The two differ on elements that compare as equal. -/
example : insSort (fun a b => (a : Int) / 2 - b / 2) [2, 3] ≠ insSort (fun a b => (a : Int) / 2 - b / 2) [2, 3].reverse := by decide

/-! ## Theorems -/

/-- The bounds of a loop do not depend on the order of the constraints, nor on how `qsort` works. -/
theorem C82_bounds (h : ICmpExact icmp) {cx cx' : Ctx} (hcx : cx' = { cx with sort := cx'.sort, gsort := cx'.gsort })
    (hs : Sorts (exprCmp icmp) cx.sort) (hs' : Sorts (exprCmp icmp) cx'.sort) (D : Dom) {rows rows' : List Row}
    (hp : rows.Perm rows') (col : Nat) (max : Bool) (st : Option Stride) :
    loopBound cx rows col max st (D.vars cx.nm) = loopBound cx' rows' col max st (D.vars cx'.nm) := by
  rw [show cx' = Ctx.with cx cx'.sort cx'.gsort from hcx]
  exact loopBound_perm h hs hs' hp (vars_sum D cx.nm) col max st

/-- The program does not depend on them either, if the domains are plain. -/
theorem C82_tree_partial (h : ICmpExact icmp) {cx cx' : Ctx} (hcx : cx' = { cx with sort := cx'.sort, gsort := cx'.gsort })
    (hs : Sorts (exprCmp icmp) cx.sort) (hg : Sorts (eqnCmp icmp) cx.gsort)
    (hs' : Sorts (exprCmp icmp) cx'.sort) (hg' : Sorts (eqnCmp icmp) cx'.gsort)
    {loops loops' : List Loop} (hl : Shuffles loops loops') (hP : PlainsL cx.nm 0 loops) :
    clastCreate cx icmp loops = clastCreate cx' icmp loops' := by
  rw [show cx' = Ctx.with cx cx'.sort cx'.gsort from hcx]
  exact insertLoops_perm h hs hg hs' hg' hl 0 [] (fun _ => none) hP

/-! ## Examples -/

def exNm : Names := ⟨0, 2, fun k => String.ofList (List.replicate (k + 1) 'i'), fun k => if k = 0 then "M" else "N"⟩
/-- With insertion sort. -/
def exA : Ctx := { exC with nm := exNm, sort := insSort (exprCmp gmpCmp), gsort := insSort (eqnCmp gmpCmp) }
/-- With the other sort. -/
def exB : Ctx := { exA with sort := fun l => insSort (exprCmp gmpCmp) l.reverse, gsort := fun l => insSort (eqnCmp gmpCmp) l.reverse }

/-- `0 <= i <= M` and `i <= N`. -/
def exD1 : Dom := ⟨1, [], [⟨false, [1, 0, 0], 0⟩, ⟨false, [-1, 1, 0], 0⟩, ⟨false, [-1, 0, 1], 0⟩]⟩
/-- `ii = i + 1`, `2 i <= N - 1`, `2 <= i`, `M <= 3 i` and `M <= N`. -/
def exD2 : Dom := ⟨2, [], [⟨true, [1, -1, 0, 0], 1⟩, ⟨false, [-2, 0, 0, 1], -1⟩, ⟨false, [1, 0, 0, 0], -2⟩,
  ⟨false, [3, 0, -1, 0], 0⟩, ⟨false, [0, 0, -1, 1], 0⟩]⟩
def exT : List Loop := [.mk ⟨0, [], []⟩ none false [] [.mk exD1 none false [] [.mk exD2 none false []
    [.mk ⟨2, [], []⟩ none false [7] []]]]]
/-- The same with all constraints in the other order. -/
def exT' : List Loop := [.mk ⟨0, [], []⟩ none false [] [.mk ⟨1, [], exD1.rows.reverse⟩ none false []
    [.mk ⟨2, [], exD2.rows.reverse⟩ none false [] [.mk ⟨2, [], []⟩ none false [7] []]]]]

theorem exT_shuffles : Shuffles exT exT' :=
  .cons (.mk (.refl _) (.cons (.mk (List.reverse_perm _).symm (.cons (.mk (List.reverse_perm _).symm
    (.cons (.mk (.refl _) .nil) .nil)) .nil)) .nil)) .nil

theorem exT_plain : PlainsL exA.nm 0 exT := by
  have h0 : ∀ L, Plain exNm L ⟨0, [], []⟩ := fun L => ⟨⟨by decide +kernel, by decide +kernel⟩, fun _ _ _ _ h => by simp at h, by unfold VarsInj; decide +kernel⟩
  have h2 : ∀ L, Plain exNm L ⟨2, [], []⟩ := fun L => ⟨⟨by decide +kernel, by decide +kernel⟩, fun _ _ _ _ h => by simp at h, by unfold VarsInj; decide +kernel⟩
  have h1 : Plain exNm 1 exD1 := ⟨⟨by decide +kernel, by decide +kernel⟩, by unfold Unmixed; decide +kernel, by unfold VarsInj; decide +kernel⟩
  have h3 : Plain exNm 2 exD2 := ⟨⟨by decide +kernel, by decide +kernel⟩, by unfold Unmixed; decide +kernel, by unfold VarsInj; decide +kernel⟩
  simp only [exT, PlainsL, Plains, and_true]
  exact ⟨h0 0, h1, h3, h2 3⟩

/-- The same program, with other sorts and another order. -/
example : clastCreate exA gmpCmp exT = clastCreate exB gmpCmp exT' :=
  C82_tree_partial gmpCmp_exact rfl (insSort_sorts _) (insSort_sorts _) (rev_sorts _) (rev_sorts _) exT_shuffles exT_plain

/-- It is not trivial: there are a loop with two upper bounds and a guard with three conditions. -/
example : clastCreate exA gmpCmp exT = some [.for_ "i" (some (.red .max [.cst 0]))
    (some (.red .min [.red .sum [.term 1 (.name "M")], .red .sum [.term 1 (.name "N")]])) 1
    [.guard [⟨.term 1 (.name "M"), .red .min [.red .sum [.term 1 (.name "N")]], -1⟩,
        ⟨.term 1 (.name "i"), .red .min [.bin .fdiv (.red .sum [.term 1 (.name "N"), .cst (-1)]) 2], -1⟩,
        ⟨.term 1 (.name "i"), .red .max [.cst 2, .bin .cdiv (.red .sum [.term 1 (.name "M")]) 3], 1⟩]
      [.user 7 [.term 1 (.name "i"), .red .sum [.term 1 (.name "i"), .cst 1]]]]] := by
  rfl

example : loopBound exA exD1.rows 0 false none (exD1.vars exA.nm) = loopBound exB exD1.rows.reverse 0 false none (exD1.vars exB.nm) :=
  C82_bounds gmpCmp_exact rfl (insSort_sorts _) (rev_sorts _) exD1 (List.reverse_perm _).symm 0 false none

/-! ## Counterexamples -/

/-- `ii = i`, `5 <= i`, `i <= M`, `i <= N` for a loop over `iii` from 0 to 9. -/
def cyD : Dom := ⟨3, [], [⟨true, [1, -1, 0, 0, 0], 0⟩, ⟨false, [1, 0, 0, 0, 0], -5⟩, ⟨false, [-1, 0, 0, 1, 0], 0⟩,
  ⟨false, [-1, 0, 0, 0, 1], 0⟩, ⟨false, [0, 0, 1, 0, 0], 0⟩, ⟨false, [0, 0, -1, 0, 0], 9⟩]⟩
/-- Loops over `i` and `ii` from 0 to 9 around it. -/
def cyT (rows : List Row) : List Loop := [.mk ⟨0, [], []⟩ none false []
  [.mk ⟨1, [], [⟨false, [1, 0, 0], 0⟩, ⟨false, [-1, 0, 0], 9⟩]⟩ none false []
    [.mk ⟨2, [], [⟨false, [0, 1, 0, 0], 0⟩, ⟨false, [0, -1, 0, 0], 9⟩]⟩ none false []
      [.mk { cyD with rows := rows } none false [] [.mk ⟨3, [], []⟩ none false [7] []]]]]]

/-- The programs made from it. -/
def cyP (cs : List Eqn) : List Stmt := [.for_ "i" (some (.red .max [.cst 0])) (some (.red .min [.cst 9])) 1
  [.for_ "ii" (some (.red .max [.cst 0])) (some (.red .min [.cst 9])) 1
    [.guard cs [.for_ "iii" (some (.red .max [.cst 0])) (some (.red .min [.cst 9])) 1
      [.user 7 [.term 1 (.name "i"), .term 1 (.name "ii"), .term 1 (.name "iii")]]]]]]
def cy1 : Eqn := ⟨.term 1 (.name "i"), .red .sum [.term 1 (.name "ii")], 0⟩
def cy2 : Eqn := ⟨.term 1 (.name "i"), .red .max [.cst 5], 1⟩
def cy3 : Eqn := ⟨.term 1 (.name "i"), .red .min [.red .sum [.term 1 (.name "M")], .red .sum [.term 1 (.name "N")]], -1⟩

/-- The three conditions `i == ii`, `i >= 5` and `i <= min(M,N)` compare in a circle, so the C standard does not
say what `qsort` does with them, and no order of them is sorted; with insertion sort, another order of the
constraints makes another program. -/
theorem C82_cycle :
    ¬ Consistent (eqnCmp gmpCmp) (guardEqns exA cyD 3 cyD.rows) ∧
    (∀ l : List Eqn, l.Perm (guardEqns exA cyD 3 cyD.rows) → ¬ l.Pairwise (fun a b => eqnCmp gmpCmp a b ≤ 0)) ∧
    Shuffles (cyT cyD.rows) (cyT cyD.rows.reverse) ∧
    clastCreate exA gmpCmp (cyT cyD.rows) = some (cyP [cy1, cy3, cy2]) ∧
    clastCreate exA gmpCmp (cyT cyD.rows.reverse) = some (cyP [cy3, cy2, cy1]) ∧
    cyP [cy1, cy3, cy2] ≠ cyP [cy3, cy2, cy1] := by
  have hno : ∀ l : List Eqn, l.Perm (guardEqns exA cyD 3 cyD.rows) → ¬ l.Pairwise (fun a b => eqnCmp gmpCmp a b ≤ 0) := by
    have : ∀ l ∈ (guardEqns exA cyD 3 cyD.rows).permutations', ¬ l.Pairwise (fun a b => eqnCmp gmpCmp a b ≤ 0) := by
      decide +kernel
    intro l hl
    exact this l (List.mem_permutations'.2 hl)
  have hp : cyD.rows.Perm cyD.rows.reverse := (List.reverse_perm _).symm
  refine ⟨fun hc => ?_, hno,
    .cons (.mk (.refl _) (.cons (.mk (.refl _) (.cons (.mk (.refl _) (.cons (.mk hp (.cons (.mk (.refl _) .nil) .nil)) .nil))
      .nil)) .nil)) .nil, rfl, rfl, ?_⟩
  · have hs := insSort_sorts (eqnCmp gmpCmp) (guardEqns exA cyD 3 cyD.rows)
    exact hno _ hs.1 (hs.2 hc)
  · simp [cyP, cy1, cy2, cy3]

/-- `ii = i`, `ii = N`: the iterator `ii` is given the value of the first. -/
def fiT (rows : List Row) : List Loop := [.mk ⟨0, [], []⟩ none false []
  [.mk ⟨1, [], [⟨false, [1, 0, 0], 0⟩, ⟨false, [-1, 0, 0], 9⟩]⟩ none false []
    [.mk ⟨2, [], rows⟩ none false [] [.mk ⟨2, [], []⟩ none false [7] []]]]]

/-- The programs made from it. -/
def fiP (x : String) : List Stmt := [.for_ "i" (some (.red .max [.cst 0])) (some (.red .min [.cst 9])) 1
  [.user 7 [.term 1 (.name "i"), .red .sum [.term 1 (.name x)]]]]

/-- With two equalities for an iterator the first is used and the other is lost: the order is seen in the program.
(isl keeps equalities in a form where this does not happen.) -/
theorem C82_first : ∃ rows rows', rows.Perm rows' ∧ Shuffles (fiT rows) (fiT rows') ∧
    clastCreate exA gmpCmp (fiT rows) = some (fiP "i") ∧ clastCreate exA gmpCmp (fiT rows') = some (fiP "N") ∧
    fiP "i" ≠ fiP "N" := by
  have hp : [(⟨true, [1, -1, 0, 0], 0⟩ : Row), ⟨true, [0, -1, 0, 1], 0⟩].Perm
      [⟨true, [0, -1, 0, 1], 0⟩, ⟨true, [1, -1, 0, 0], 0⟩] := List.Perm.swap _ _ _
  refine ⟨_, _, hp, .cons (.mk (.refl _) (.cons (.mk (.refl _) (.cons (.mk hp (.cons (.mk (.refl _) .nil) .nil)) .nil))
      .nil)) .nil, rfl, rfl, ?_⟩
  simp [fiP]

end Verif.Props.Order
