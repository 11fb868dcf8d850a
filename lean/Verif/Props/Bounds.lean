import Verif.Lemmas.Bound
import Verif.Props.Arith
import Verif.Props.Expr

/-!
# C05, C06: bounds built from constraints

Specification: a constraint row holds at a point or not (`Row.holds`); the value of the loop variable
is changed with `Function.update`.  Nothing else of the model is used in the statements.
-/

namespace Verif.Props.Bounds

open Verif.IntOps Verif.Clast Verif.Bound Verif.Props.Arith Verif.Props.Expr

/-- The environment `env` (program variables) and the point `x` (columns) agree: the expression
standing for each column used by the row, except the scanned one, evaluates to the column's value. -/
def Agree (vars : Nat → Expr) (env : Env) (x : Point) (l : Nat) (r : Row) : Prop :=
  ∀ i, i ≠ l → r.at i ≠ 0 → (vars i).eval env = x i

/-! ## C05 -/

/-- C05: no expression is produced exactly when the constraint does not involve the variable. -/
theorem C05_null_iff (r : Row) (l : Nat) (vars : Nat → Expr) :
    boundFromConstraint r l vars = none ↔
      ∀ (x : Point) (v w : Int), r.val (Function.update x l v) = r.val (Function.update x l w) := by
  rw [bound_none]
  constructor
  · intro h x v w
    rw [Row.val_update, Row.val_update r l x w, h]; simp
  · intro h
    have := h (fun _ => 0) 1 0
    rw [Row.val_update] at this; omega

example : boundFromConstraint ⟨false, [1, 0, -3], 4⟩ 1 (fun _ => .name "x") = none := by decide

theorem ceild_le_iff (n d v : Int) (hd : 0 < d) : ceild n d ≤ v ↔ n ≤ d * v := by
  rw [ceild_eq n d hd]
  rw [show (-(-n / d) ≤ v ↔ -v ≤ -n / d) by omega, Int.le_ediv_iff_mul_le hd]
  constructor <;> intro h <;> nlinarith

theorem le_floord_iff (n d v : Int) (hd : 0 < d) : v ≤ floord n d ↔ d * v ≤ n := by
  rw [floord_eq n d hd, Int.le_ediv_iff_mul_le hd]
  constructor <;> intro h <;> nlinarith

/-- C05, lower bounds: for an inequality with a positive coefficient, the values of the variable
that satisfy it are exactly those at or above the value of the produced expression. -/
theorem C05_lower (r : Row) (l : Nat) (vars : Nat → Expr) (e : Expr) (env : Env) (x : Point)
    (he : boundFromConstraint r l vars = some e) (hx : Agree vars env x l r)
    (hq : r.isEq = false) (ha : 0 < r.at l) (v : Int) :
    r.holds (Function.update x l v) ↔ e.eval env ≤ v := by
  obtain ⟨_, h, _⟩ := bound_eval r l vars e he env x hx
  rw [h ha hq, ceild_le_iff _ _ _ ha]
  unfold Row.holds
  rw [hq, if_neg (by simp), Row.val_update]
  constructor <;> intro h <;> omega

/-- C05, upper bounds. -/
theorem C05_upper (r : Row) (l : Nat) (vars : Nat → Expr) (e : Expr) (env : Env) (x : Point)
    (he : boundFromConstraint r l vars = some e) (hx : Agree vars env x l r)
    (hq : r.isEq = false) (ha : r.at l < 0) (v : Int) :
    r.holds (Function.update x l v) ↔ v ≤ e.eval env := by
  obtain ⟨_, _, h, _⟩ := bound_eval r l vars e he env x hx
  rw [h ha hq, le_floord_iff _ _ _ (by omega)]
  unfold Row.holds
  rw [hq, if_neg (by simp), Row.val_update]
  have : -r.at l * v = -(r.at l * v) := by ring
  rw [this]
  constructor <;> intro h <;> omega

/-- C05, equalities: if some integer value of the variable satisfies the equality, it is the value of
the expression. -/
theorem C05_equality (r : Row) (l : Nat) (vars : Nat → Expr) (e : Expr) (env : Env) (x : Point)
    (he : boundFromConstraint r l vars = some e) (hx : Agree vars env x l r)
    (hq : r.isEq = true) (v : Int) (hv : r.holds (Function.update x l v)) :
    v = e.eval env := by
  obtain ⟨ha, _, _, h1, h2⟩ := bound_eval r l vars e he env x hx
  unfold Row.holds at hv
  rw [hq, if_pos rfl, Row.val_update] at hv
  rcases lt_or_gt_of_ne ha with hlt | hgt
  · rw [h2 hlt hq]
    have : r.val (Function.update x l 0) = -(r.at l) * v := by
      have : -(r.at l) * v = -(r.at l * v) := by ring
      omega
    rw [this, Int.mul_tdiv_cancel_left _ (by omega)]
  · rw [h1 hgt hq]
    have : -r.val (Function.update x l 0) = r.at l * v := by omega
    rw [this, Int.mul_tdiv_cancel_left _ (by omega)]

/-- C05, equalities, converse: the value of the expression satisfies the equality whenever the
coefficient divides the rest, in particular when it is 1 or -1. -/
theorem C05_equality_converse (r : Row) (l : Nat) (vars : Nat → Expr) (e : Expr) (env : Env)
    (x : Point) (he : boundFromConstraint r l vars = some e) (hx : Agree vars env x l r)
    (hq : r.isEq = true) (hd : r.at l ∣ r.val (Function.update x l 0)) :
    r.holds (Function.update x l (e.eval env)) := by
  obtain ⟨q, hq'⟩ := hd
  have hh : r.holds (Function.update x l (-q)) := by
    unfold Row.holds
    rw [hq, if_pos rfl, Row.val_update, hq']; ring
  have := C05_equality r l vars e env x he hx hq (-q) hh
  rw [← this]; exact hh

/-- Names used in the examples: column 0 is `i`, column 1 is `j`, column 2 is `N`. -/
def exVars : Nat → Expr := fun k => .name (["i", "j", "N"].getD k "?")

/-- `-3 j + 2 i + N - 1 >= 0` gives `j <= floord(2*i+N-1, 3)`. -/
example : boundFromConstraint ⟨false, [2, -3, 1], -1⟩ 1 exVars =
    some (.bin .fdiv (.red .sum [.term 2 (.name "i"), .term 1 (.name "N"), .cst (-1)]) 3) := by
  decide
/-- Constant lower bound, rounded up: `3 j - 7 >= 0` gives `j >= 3`. -/
example : boundFromConstraint ⟨false, [0, 3, 0], -7⟩ 1 exVars = some (.cst 3) := by decide
/-- Constant upper bound, rounded down: `-3 j - 7 >= 0` gives `j <= -3`. -/
example : boundFromConstraint ⟨false, [0, -3, 0], -7⟩ 1 exVars = some (.cst (-3)) := by decide
/-- The hypotheses of `C05_lower` are met by `3 j - 2 i - N >= 0` at `i = 5, N = 4`. -/
example : Agree exVars (fun s => if s = "i" then 5 else 4) (fun k => if k = 0 then 5 else 4) 1
    ⟨false, [-2, 3, -1], 0⟩ ∧ 0 < Row.at ⟨false, [-2, 3, -1], 0⟩ 1 := by
  refine ⟨?_, by decide⟩
  intro i h1 h2
  match i, h1, h2 with
  | 0, _, _ => decide
  | 1, h1, _ => exact absurd rfl h1
  | 2, _, _ => decide
  | n + 3, _, h2 => exact absurd (by simp [Row.at]) h2

theorem boundTerms_sumOnly (neg : Bool) (l : Nat) (vars : Nat → Expr)
    (hv : ∀ i, SumOnly (vars i)) : ∀ (cs : List Int) (i : Nat),
    SumOnlyList (boundTerms neg l vars cs i)
  | [], _ => by simp [boundTerms, SumOnlyList]
  | c :: cs, i => by
    unfold boundTerms
    split
    · exact boundTerms_sumOnly neg l vars hv cs _
    · exact ⟨hv i, boundTerms_sumOnly neg l vars hv cs _⟩

theorem sumOnlyList_append : ∀ (a b : List Expr), SumOnlyList a → SumOnlyList b →
    SumOnlyList (a ++ b)
  | [], _, _, hb => hb
  | _ :: xs, b, ha, hb => ⟨ha.1, sumOnlyList_append xs b ha.2 hb⟩

/-- Bounds contain no min or max if the variable expressions contain none: the comparator used for
sorting them is a preorder on them (`C09_preorder_partial`). -/
theorem bound_sumOnly (r : Row) (l : Nat) (vars : Nat → Expr) (hv : ∀ i, SumOnly (vars i))
    (e : Expr) (he : boundFromConstraint r l vars = some e) : SumOnly e := by
  have ht := fun neg => boundTerms_sumOnly neg l vars hv r.coef 0
  unfold boundFromConstraint at he
  dsimp only at he
  have hred : ∀ (neg : Bool) (num : Int), SumOnly (.red .sum
      (if sgn num ≠ 0 then boundTerms neg l vars r.coef 0 ++ [.cst num]
        else boundTerms neg l vars r.coef 0)) := by
    intro neg num
    simp only [SumOnly, true_and]
    split
    · exact sumOnlyList_append _ _ (ht neg) ⟨trivial, trivial⟩
    · exact ht neg
  generalize (decide (sgn (r.at l) > 0)) = neg at he
  generalize (if neg then -r.cst else r.cst) = num at he
  have := hred neg num
  generalize (Expr.red .sum (if sgn num ≠ 0 then boundTerms neg l vars r.coef 0 ++ [.cst num]
        else boundTerms neg l vars r.coef 0)) = red at he this
  repeat' split at he
  all_goals first
    | (cases he; done)
    | (injection he with he; subst he; first | exact this | (simp only [SumOnly]; first | done | exact this))

theorem boundTerms_wf (neg : Bool) (l : Nat) (vars : Nat → Expr)
    (hv : ∀ i, (vars i).wf = true) : ∀ (cs : List Int) (i : Nat),
    wfList (boundTerms neg l vars cs i) = true
  | [], _ => by simp [boundTerms, wfList]
  | c :: cs, i => by
    unfold boundTerms
    split
    · exact boundTerms_wf neg l vars hv cs _
    · simp only [wfList, Expr.wf, hv i, boundTerms_wf neg l vars hv cs _, Bool.and_self]

theorem wfList_append : ∀ (a b : List Expr), wfList a = true → wfList b = true →
    wfList (a ++ b) = true
  | [], _, _, hb => hb
  | x :: xs, b, ha, hb => by
    simp only [wfList, Bool.and_eq_true] at ha
    simp only [List.cons_append, wfList, Bool.and_eq_true]
    exact ⟨ha.1, wfList_append xs b ha.2 hb⟩

/-- C05: every division in the expression has a positive divisor, as the printed macros require
(C01). -/
theorem C05_divisors_positive (r : Row) (l : Nat) (vars : Nat → Expr)
    (hv : ∀ i, (vars i).wf = true) (e : Expr) (he : boundFromConstraint r l vars = some e) :
    e.wf = true := by
  have ht := fun neg => boundTerms_wf neg l vars hv r.coef 0
  have ha : r.at l ≠ 0 := fun h => by rw [(bound_none r l vars).mpr h] at he; cases he
  have hd : 0 < (if (decide (sgn (r.at l) > 0)) then r.at l else - r.at l) := by
    by_cases h : 0 < r.at l
    · rw [if_pos (by simpa using (sgn_pos _).mpr h)]; exact h
    · rw [if_neg (fun h' => h ((sgn_pos _).mp (by simpa using h')))]; omega
  unfold boundFromConstraint at he
  dsimp only at he
  have hred : ∀ (neg : Bool) (num : Int), Expr.wf (.red .sum
      (if sgn num ≠ 0 then boundTerms neg l vars r.coef 0 ++ [.cst num]
        else boundTerms neg l vars r.coef 0)) = true := by
    intro neg num
    simp only [Expr.wf, decide_true, Bool.true_or, Bool.true_and]
    split
    · exact wfList_append _ _ (ht neg) (by simp [wfList, Expr.wf])
    · exact ht neg
  generalize (decide (sgn (r.at l) > 0)) = neg at he hd
  generalize (if neg then -r.cst else r.cst) = num at he
  generalize (if neg then r.at l else - r.at l) = den at he hd
  have := hred neg num
  generalize (Expr.red .sum (if sgn num ≠ 0 then boundTerms neg l vars r.coef 0 ++ [.cst num]
        else boundTerms neg l vars r.coef 0)) = red at he this
  repeat' split at he
  all_goals first
    | (cases he; done)
    | (injection he with he; subst he; first | exact this | (simp [Expr.wf, this, hd]; done))

/-! ## C06 -/

/-- `v` is at or above the (possibly absent) lower bound. -/
def AboveLb (env : Env) (e : Option Expr) (v : Int) : Prop :=
  match e with | some e => e.eval env ≤ v | none => True
/-- `v` is at or below the (possibly absent) upper bound. -/
def BelowUb (env : Env) (e : Option Expr) (v : Int) : Prop :=
  match e with | some e => v ≤ e.eval env | none => True

theorem max_le_iff : ∀ (l : List Int), l ≠ [] → ∀ v, RedType.eval .max l ≤ v ↔ ∀ a ∈ l, a ≤ v
  | [], h, _ => absurd rfl h
  | [x], _, v => by simp [RedType.eval]
  | x :: y :: ys, _, v => by
    have ih := max_le_iff (y :: ys) (by simp) v
    have : RedType.eval .max (x :: y :: ys) = cmax x (RedType.eval .max (y :: ys)) := rfl
    rw [this, List.forall_mem_cons, ← ih]
    unfold cmax
    split <;> constructor <;> intro h <;> (try constructor) <;> omega

theorem le_min_iff : ∀ (l : List Int), l ≠ [] → ∀ v, v ≤ RedType.eval .min l ↔ ∀ a ∈ l, v ≤ a
  | [], h, _ => absurd rfl h
  | [x], _, v => by simp [RedType.eval]
  | x :: y :: ys, _, v => by
    have ih := le_min_iff (y :: ys) (by simp) v
    have : RedType.eval .min (x :: y :: ys) = cmin x (RedType.eval .min (y :: ys)) := rfl
    rw [this, List.forall_mem_cons, ← ih]
    unfold cmin
    split <;> constructor <;> intro h <;> (try constructor) <;> omega

theorem max_mem : ∀ (l : List Int), l ≠ [] → RedType.eval .max l ∈ l
  | [], h => absurd rfl h
  | [x], _ => by simp [RedType.eval]
  | x :: y :: ys, _ => by
    have ih := max_mem (y :: ys) (by simp)
    have : RedType.eval .max (x :: y :: ys) = cmax x (RedType.eval .max (y :: ys)) := rfl
    rw [this]
    unfold cmax
    split
    · simp
    · exact List.mem_cons_of_mem _ ih

/-- What `collect_bounds` collects. -/
theorem mem_collect {rows : List Row} {l : Nat} {max : Bool} {guard : Option Nat} {lb ne : Bool}
    {st : Option CStride} {vars : Nat → Expr} {e : Expr} :
    e ∈ collectBounds rows l max guard lb ne st vars ↔
      ∃ r ∈ rows, validBound r l max guard ne = true ∧ ∃ b, boundFromConstraint r l vars = some b ∧
        e = adjustBound lb st b := by
  unfold collectBounds
  simp only [List.mem_filterMap, List.mem_filter, Option.map_eq_some_iff]
  constructor
  · rintro ⟨r, ⟨hr, hv⟩, b, hb, rfl⟩; exact ⟨r, hr, hv, b, hb, rfl⟩
  · rintro ⟨r, hr, hv, b, hb, rfl⟩; exact ⟨r, ⟨hr, hv⟩, b, hb, rfl⟩

/-- A loop's lower bound call of `clast_minmax` (source/clast.c:1735-1736, first `clast_minmax`). -/
abbrev loopLb (sort : List Expr → List Expr) (rows : List Row) (l : Nat) (st : Option CStride)
    (vars : Nat → Expr) := minmax sort rows l true none true false st vars
/-- A loop's upper bound call of `clast_minmax` (source/clast.c:1735-1736, second call). -/
abbrev loopUb (sort : List Expr → List Expr) (rows : List Row) (l : Nat) (st : Option CStride)
    (vars : Nat → Expr) := minmax sort rows l false none false false st vars

theorem validLower {r : Row} {l : Nat} : validBound r l true none false = true ↔
    0 < r.at l ∧ r.isEq = false := by
  simp [validBound, Row.isLower]
theorem validUpper {r : Row} {l : Nat} : validBound r l false none false = true ↔
    r.at l < 0 ∧ r.isEq = false := by
  simp [validBound, Row.isUpper]

theorem bound_exists {r : Row} {l : Nat} (vars : Nat → Expr) (h : r.at l ≠ 0) :
    ∃ b, boundFromConstraint r l vars = some b := by
  cases hb : boundFromConstraint r l vars with
  | none => exact absurd ((bound_none r l vars).mp hb) h
  | some b => exact ⟨b, rfl⟩

/-- C06: a bound is absent iff there is no inequality bounding the variable on that side. -/
theorem C06_lower_absent_iff (sort : List Expr → List Expr) (rows : List Row) (l : Nat)
    (st : Option CStride) (vars : Nat → Expr) :
    loopLb sort rows l st vars = none ↔ ∀ r ∈ rows, r.isEq = false → ¬ 0 < r.at l := by
  unfold loopLb minmax
  dsimp only
  split
  · rename_i h
    simp only [true_iff]
    intro r hr hq ha
    obtain ⟨b, hb⟩ := bound_exists vars (show r.at l ≠ 0 by omega)
    have := (mem_collect (st := st) (lb := true)).mpr ⟨r, hr, validLower.mpr ⟨ha, hq⟩, b, hb, rfl⟩
    rw [List.isEmpty_iff.mp h] at this; cases this
  · rename_i h
    simp only [reduceCtorEq, false_iff]
    intro hall
    apply h
    rw [List.isEmpty_iff, List.eq_nil_iff_forall_not_mem]
    intro e he
    obtain ⟨r, hr, hv, _⟩ := mem_collect.mp he
    exact hall r hr (validLower.mp hv).2 (validLower.mp hv).1

/-- C06: absence of the upper bound. -/
theorem C06_upper_absent_iff (sort : List Expr → List Expr) (rows : List Row) (l : Nat)
    (st : Option CStride) (vars : Nat → Expr) :
    loopUb sort rows l st vars = none ↔ ∀ r ∈ rows, r.isEq = false → ¬ r.at l < 0 := by
  unfold loopUb minmax
  dsimp only
  split
  · rename_i h
    simp only [true_iff]
    intro r hr hq ha
    obtain ⟨b, hb⟩ := bound_exists vars (show r.at l ≠ 0 by omega)
    have := (mem_collect (st := st) (lb := false)).mpr ⟨r, hr, validUpper.mpr ⟨ha, hq⟩, b, hb, rfl⟩
    rw [List.isEmpty_iff.mp h] at this; cases this
  · rename_i h
    simp only [reduceCtorEq, false_iff]
    intro hall
    apply h
    rw [List.isEmpty_iff, List.eq_nil_iff_forall_not_mem]
    intro e he
    obtain ⟨r, hr, hv, _⟩ := mem_collect.mp he
    exact hall r hr (validUpper.mp hv).2 (validUpper.mp hv).1

theorem minmax_above {sort : List Expr → List Expr} (hsort : ∀ l, (sort l).Perm l)
    (rows : List Row) (l : Nat) (g : Option Nat) (lb ne : Bool) (st : Option CStride)
    (vars : Nat → Expr) (env : Env) (v : Int) :
    AboveLb env (minmax sort rows l true g lb ne st vars) v ↔
      ∀ e ∈ collectBounds rows l true g lb ne st vars, e.eval env ≤ v := by
  unfold minmax
  dsimp only
  generalize collectBounds rows l true g lb ne st vars = elts
  split
  · rename_i h; rw [List.isEmpty_iff.mp h]; simp [AboveLb]
  · rename_i h
    have hne : sort elts ≠ [] := fun h' => h (by
      have := (hsort elts).length_eq; rw [h'] at this
      rw [List.isEmpty_iff]; exact List.eq_nil_of_length_eq_zero this.symm)
    simp only [AboveLb, if_true, Expr.eval, evalList_eq_map]
    rw [max_le_iff _ (by simpa using hne)]
    simp only [List.mem_map, forall_exists_index, and_imp, forall_apply_eq_imp_iff₂]
    constructor <;> intro h e he
    · exact h e ((hsort elts).mem_iff.mpr he)
    · exact h e ((hsort elts).mem_iff.mp he)

theorem minmax_below {sort : List Expr → List Expr} (hsort : ∀ l, (sort l).Perm l)
    (rows : List Row) (l : Nat) (g : Option Nat) (lb ne : Bool) (st : Option CStride)
    (vars : Nat → Expr) (env : Env) (v : Int) :
    BelowUb env (minmax sort rows l false g lb ne st vars) v ↔
      ∀ e ∈ collectBounds rows l false g lb ne st vars, v ≤ e.eval env := by
  unfold minmax
  dsimp only
  generalize collectBounds rows l false g lb ne st vars = elts
  split
  · rename_i h; rw [List.isEmpty_iff.mp h]; simp [BelowUb]
  · rename_i h
    have hne : sort elts ≠ [] := fun h' => h (by
      have := (hsort elts).length_eq; rw [h'] at this
      rw [List.isEmpty_iff]; exact List.eq_nil_of_length_eq_zero this.symm)
    simp only [BelowUb, Bool.false_eq_true, if_false, Expr.eval, evalList_eq_map]
    rw [le_min_iff _ (by simpa using hne)]
    simp only [List.mem_map, forall_exists_index, and_imp, forall_apply_eq_imp_iff₂]
    constructor <;> intro h e he
    · exact h e ((hsort elts).mem_iff.mpr he)
    · exact h e ((hsort elts).mem_iff.mp he)

/-- C06: for any sort that permutes, the integers between the two bounds are exactly the integers
that satisfy all inequalities involving the loop variable. -/
theorem C06_scans_exactly (sort : List Expr → List Expr) (hsort : ∀ l, (sort l).Perm l)
    (rows : List Row) (l : Nat) (vars : Nat → Expr) (env : Env) (x : Point)
    (hx : ∀ r ∈ rows, r.isEq = false → r.at l ≠ 0 → Agree vars env x l r) (v : Int) :
    (AboveLb env (loopLb sort rows l none vars) v ∧ BelowUb env (loopUb sort rows l none vars) v) ↔
      ∀ r ∈ rows, r.isEq = false → r.at l ≠ 0 → r.holds (Function.update x l v) := by
  rw [minmax_above hsort, minmax_below hsort]
  constructor
  · rintro ⟨h1, h2⟩ r hr hq ha
    obtain ⟨b, hb⟩ := bound_exists vars ha
    rcases lt_or_gt_of_ne ha with hlt | hgt
    · rw [C05_upper r l vars b env x hb (hx r hr hq ha) hq hlt]
      exact h2 b (mem_collect.mpr ⟨r, hr, validUpper.mpr ⟨hlt, hq⟩, b, hb, rfl⟩)
    · rw [C05_lower r l vars b env x hb (hx r hr hq ha) hq hgt]
      exact h1 b (mem_collect.mpr ⟨r, hr, validLower.mpr ⟨hgt, hq⟩, b, hb, rfl⟩)
  · intro h
    constructor
    · intro e he
      obtain ⟨r, hr, hv, b, hb, hee⟩ := mem_collect.mp he
      simp only [adjustBound] at hee; subst e
      obtain ⟨ha, hq⟩ := validLower.mp hv
      exact (C05_lower r l vars b env x hb (hx r hr hq (by omega)) hq ha v).mp (h r hr hq (by omega))
    · intro e he
      obtain ⟨r, hr, hv, b, hb, hee⟩ := mem_collect.mp he
      simp only [adjustBound] at hee; subst e
      obtain ⟨ha, hq⟩ := validUpper.mp hv
      exact (C05_upper r l vars b env x hb (hx r hr hq (by omega)) hq ha v).mp (h r hr hq (by omega))

/-- C06 for strided loops: with a constant-offset stride, starting at the lower bound and stepping by
the stride visits exactly the satisfying values congruent to the offset, provided there is a lower
bound and every non-constant lower bound is already congruent to the offset (the C code relies on the
stride bound added to the domain for that; constant bounds are adjusted here). -/
theorem C06_scans_stride (sort : List Expr → List Expr) (hsort : ∀ l, (sort l).Perm l)
    (rows : List Row) (l : Nat) (vars : Nat → Expr) (s : CStride) (hs : 0 < s.stride) (env : Env)
    (x : Point) (hx : ∀ r ∈ rows, r.isEq = false → r.at l ≠ 0 → Agree vars env x l r)
    (lb : Expr) (hlb : loopLb sort rows l (some s) vars = some lb)
    (hcong : ∀ r ∈ rows, r.isEq = false → 0 < r.at l → ∀ b, boundFromConstraint r l vars = some b →
      (∃ c, b = .cst c) ∨ s.stride ∣ b.eval env - s.offset) (v : Int) :
    ((∃ t : Nat, v = lb.eval env + t * s.stride) ∧
        BelowUb env (loopUb sort rows l (some s) vars) v) ↔
      (s.stride ∣ v - s.offset ∧
        ∀ r ∈ rows, r.isEq = false → r.at l ≠ 0 → r.holds (Function.update x l v)) := by
  -- every adjusted lower bound is the least congruent value satisfying its row
  have hcoll : ∀ e ∈ collectBounds rows l true none true false (some s) vars,
      s.stride ∣ e.eval env - s.offset := by
    intro e he
    obtain ⟨r, hr, hv, b, hb, hee⟩ := mem_collect.mp he
    simp only [adjustBound] at hee; subst e
    obtain ⟨ha, hq⟩ := validLower.mp hv
    have hc := hcong r hr hq ha b hb
    cases b with
    | cst c =>
      obtain ⟨w, hw, _, hd, _⟩ := C07_least c s.stride s.offset hs
      simpa [updLower, hw, Expr.eval] using hd
    | _ =>
      rcases hc with ⟨c, hc⟩ | hc
      · cases hc
      · simpa [updLower] using hc
  have hrow : ∀ r ∈ rows, r.isEq = false → 0 < r.at l → ∀ b, boundFromConstraint r l vars = some b →
      ∀ v, s.stride ∣ v - s.offset → ((updLower s b).eval env ≤ v ↔ b.eval env ≤ v) := by
    intro r hr hq ha b hb v hv
    cases b with
    | cst c =>
      obtain ⟨w, hw, h1, hd, h2⟩ := C07_least c s.stride s.offset hs
      simp only [updLower, hw, Expr.eval, Option.getD_some]
      exact ⟨fun h => by omega, fun h => h2 v h hv⟩
    | _ => simp [updLower]
  have hlbc : s.stride ∣ lb.eval env - s.offset := by
    unfold loopLb minmax at hlb
    dsimp only at hlb
    split at hlb
    · cases hlb
    · rename_i hne
      injection hlb with hlb; subst hlb
      simp only [if_true, Expr.eval, evalList_eq_map]
      have hn : (sort (collectBounds rows l true none true false (some s) vars)).map
          (Expr.eval env) ≠ [] := by
        intro h'
        apply hne
        have := (hsort (collectBounds rows l true none true false (some s) vars)).length_eq
        rw [List.map_eq_nil_iff.mp h'] at this
        rw [List.isEmpty_iff]; exact List.eq_nil_of_length_eq_zero this.symm
      obtain ⟨e, he, he'⟩ := List.mem_map.mp (max_mem _ hn)
      rw [← he']
      exact hcoll e ((hsort _).mem_iff.mp he)
  have hab : ∀ w, lb.eval env ≤ w ↔
      ∀ e ∈ collectBounds rows l true none true false (some s) vars, e.eval env ≤ w := by
    intro w
    have := minmax_above hsort rows l none true false (some s) vars env w
    rw [show minmax sort rows l true none true false (some s) vars = some lb from hlb] at this
    exact this
  have hsteps : ∀ w, (∃ t : Nat, w = lb.eval env + t * s.stride) ↔
      (lb.eval env ≤ w ∧ s.stride ∣ w - s.offset) := by
    intro w
    constructor
    · rintro ⟨t, rfl⟩
      have h0 : (0 : Int) ≤ t * s.stride := by positivity
      refine ⟨by omega, ?_⟩
      have : lb.eval env + t * s.stride - s.offset = (lb.eval env - s.offset) + t * s.stride := by
        ring
      rw [this]
      exact Int.dvd_add hlbc ⟨t, by ring⟩
    · rintro ⟨h1, h2⟩
      have h3 : s.stride ∣ w - lb.eval env := by
        have := Int.dvd_sub h2 hlbc
        rwa [show w - s.offset - (lb.eval env - s.offset) = w - lb.eval env by ring] at this
      obtain ⟨k, hk⟩ := h3
      have hk0 : 0 ≤ k := by
        by_contra hneg
        have : s.stride * k < 0 := by nlinarith
        omega
      refine ⟨k.toNat, ?_⟩
      rw [Int.toNat_of_nonneg hk0, Int.mul_comm]; omega
  rw [hsteps, hab, minmax_below hsort]
  constructor
  · rintro ⟨⟨h1, hd⟩, h2⟩
    refine ⟨hd, ?_⟩
    intro r hr hq ha
    obtain ⟨b, hb⟩ := bound_exists vars ha
    rcases lt_or_gt_of_ne ha with hlt | hgt
    · rw [C05_upper r l vars b env x hb (hx r hr hq ha) hq hlt]
      exact h2 b (mem_collect.mpr ⟨r, hr, validUpper.mpr ⟨hlt, hq⟩, b, hb, rfl⟩)
    · rw [C05_lower r l vars b env x hb (hx r hr hq ha) hq hgt, ← hrow r hr hq hgt b hb v hd]
      exact h1 _ (mem_collect.mpr ⟨r, hr, validLower.mpr ⟨hgt, hq⟩, b, hb, rfl⟩)
  · rintro ⟨hd, h⟩
    refine ⟨⟨?_, hd⟩, ?_⟩
    · intro e he
      obtain ⟨r, hr, hv, b, hb, hee⟩ := mem_collect.mp he
      simp only [adjustBound] at hee; subst e
      obtain ⟨ha, hq⟩ := validLower.mp hv
      have := (C05_lower r l vars b env x hb (hx r hr hq (by omega)) hq ha v).mp
        (h r hr hq (by omega))
      exact (hrow r hr hq ha b hb v hd).mpr this
    · intro e he
      obtain ⟨r, hr, hv, b, hb, hee⟩ := mem_collect.mp he
      simp only [adjustBound] at hee; subst e
      obtain ⟨ha, hq⟩ := validUpper.mp hv
      exact (C05_upper r l vars b env x hb (hx r hr hq (by omega)) hq ha v).mp (h r hr hq (by omega))

/-- The sort of the model is a permutation, so the hypothesis on `sort` can be met. -/
theorem qsortExpr_perm (icmp : Int → Int → Int) (l : List Expr) :
    (qsortExpr icmp l).Perm l := by
  induction l with
  | nil => exact List.Perm.refl _
  | cons e es ih =>
    show (List.takeWhile _ (qsortExpr icmp es) ++ e :: List.dropWhile _ (qsortExpr icmp es)).Perm _
    refine List.perm_middle.trans ?_
    rw [List.takeWhile_append_dropWhile]
    exact List.Perm.cons _ ih

/-- Two lower bounds and one upper bound on `j` (column 1): `j >= i`, `2j >= N`, `j <= N`. -/
example : loopLb (qsortExpr gmpCmp) [⟨false, [-1, 1, 0], 0⟩, ⟨false, [0, 2, -1], 0⟩,
      ⟨false, [0, -1, 1], 0⟩] 1 none exVars =
    some (.red .max [.bin .cdiv (.red .sum [.term 1 (.name "N")]) 2,
      .red .sum [.term 1 (.name "i")]]) := by decide

/-- A strided case: `j >= 3`, `j <= N`, stride 4 offset 1; the bound becomes 5. -/
example : loopLb (qsortExpr gmpCmp) [⟨false, [0, 1, 0], -3⟩, ⟨false, [0, -1, 1], 0⟩] 1
    (some ⟨4, 1⟩) exVars = some (.red .max [.cst 5]) := by decide

/-- Without the congruence hypothesis the strided scan is not exact: the lower bound `j >= i`,
stride 2 offset 0, `i = 1`: the loop starts at 1, which is not congruent to 0. -/
theorem C06_stride_needs_congruence :
    loopLb (qsortExpr gmpCmp) [⟨false, [-1, 1, 0], 0⟩] 1 (some ⟨2, 0⟩) exVars =
      some (.red .max [.red .sum [.term 1 (.name "i")]]) ∧
    Expr.eval (fun _ => 1) (.red .max [.red .sum [.term 1 (.name "i")]]) = 1 ∧
    ¬ ((2 : Int) ∣ 1 - 0) := by decide

end Verif.Props.Bounds
