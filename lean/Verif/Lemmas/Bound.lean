import Verif.Model.Bound
import Verif.Lemmas.IntOps
import Mathlib.Logic.Function.Basic

namespace Verif.Bound

open Verif.IntOps Verif.Clast

theorem dotFrom_congr : ∀ (cs : List Int) (i : Nat) (x y : Point),
    (∀ k, k < cs.length → cs.getD k 0 ≠ 0 → x (i + k) = y (i + k)) →
    dotFrom cs i x = dotFrom cs i y
  | [], _, _, _, _ => rfl
  | c :: cs, i, x, y, h => by
    simp only [dotFrom]
    have h0 : c * x i = c * y i := by
      by_cases hc : c = 0
      · simp [hc]
      · have := h 0 (by simp) (by simpa using hc)
        simp only [Nat.add_zero] at this; rw [this]
    rw [h0, dotFrom_congr cs (i + 1) x y (fun k hk hne => by
      have := h (k + 1) (by simpa using hk) (by simpa using hne)
      rwa [show i + (k + 1) = i + 1 + k by omega] at this)]

/-- Splitting one column off the affine form. -/
theorem dotFrom_update : ∀ (cs : List Int) (i l : Nat) (x : Point) (v : Int), i ≤ l →
    dotFrom cs i (Function.update x l v) =
      dotFrom cs i (Function.update x l 0) + cs.getD (l - i) 0 * v
  | [], i, l, x, v, _ => by simp [dotFrom]
  | c :: cs, i, l, x, v, h => by
    simp only [dotFrom]
    by_cases hil : i = l
    · subst hil
      have e : dotFrom cs (i + 1) (Function.update x i v) =
          dotFrom cs (i + 1) (Function.update x i 0) := by
        apply dotFrom_congr
        intro k _ _
        rw [Function.update_of_ne (by omega), Function.update_of_ne (by omega)]
      rw [e]
      simp
      ring
    · have hlt : i + 1 ≤ l := by omega
      rw [dotFrom_update cs (i + 1) l x v hlt, Function.update_of_ne hil, Function.update_of_ne hil]
      have : l - i = (l - (i + 1)) + 1 := by omega
      rw [this, List.getD_cons_succ]
      ring

theorem Row.val_update (r : Row) (l : Nat) (x : Point) (v : Int) :
    r.val (Function.update x l v) = r.val (Function.update x l 0) + r.at l * v := by
  unfold Row.val Row.at
  rw [dotFrom_update r.coef 0 l x v (Nat.zero_le _)]
  simp only [Nat.sub_zero]; ring

theorem sum_append (a b : List Int) :
    RedType.eval .sum (a ++ b) = RedType.eval .sum a + RedType.eval .sum b := by
  simp only [RedType.eval]
  induction a with
  | nil => simp
  | cons x xs ih => simp only [List.cons_append, List.foldr_cons, ih]; ring

theorem evalList_append (env : Env) (a b : List Expr) :
    evalList env (a ++ b) = evalList env a ++ evalList env b := by
  induction a with
  | nil => rfl
  | cons x xs ih => simp [evalList, ih]

theorem evalList_eq_map (env : Env) (l : List Expr) : evalList env l = l.map (Expr.eval env) := by
  induction l with
  | nil => rfl
  | cons x xs ih => simp [evalList, ih]

/-- The terms sum up to plus or minus the affine form with column `l` set to 0. -/
theorem boundTerms_sum (env : Env) (neg : Bool) (l : Nat) (vars : Nat → Expr) (x : Point) :
    ∀ (cs : List Int) (i : Nat),
    (∀ k, k < cs.length → i + k ≠ l → cs.getD k 0 ≠ 0 → (vars (i + k)).eval env = x (i + k)) →
    RedType.eval .sum (evalList env (boundTerms neg l vars cs i)) =
      (if neg then -1 else 1) * dotFrom cs i (Function.update x l 0)
  | [], i, _ => by simp [boundTerms, evalList, RedType.eval, dotFrom]
  | c :: cs, i, h => by
    have ih := boundTerms_sum env neg l vars x cs (i + 1) (fun k hk h1 h2 => by
      have := h (k + 1) (by simpa using hk) (by omega) (by simpa using h2)
      rwa [show i + (k + 1) = i + 1 + k by omega] at this)
    unfold boundTerms
    by_cases hc : i = l ∨ sgn c = 0
    · rw [if_pos hc, ih]
      simp only [dotFrom]
      rcases hc with rfl | hc
      · simp
      · rw [(sgn_eq_zero c).mp hc]; simp
    · rw [if_neg hc]
      have hil : i ≠ l := fun h' => hc (Or.inl h')
      have hc0 : c ≠ 0 := fun h' => hc (Or.inr ((sgn_eq_zero c).mpr h'))
      have hv := h 0 (by simp) (by simpa using hil) (by simpa using hc0)
      simp only [Nat.add_zero] at hv
      simp only [evalList, RedType.eval, List.foldr_cons, Expr.eval, hv, dotFrom,
        Function.update_of_ne hil]
      simp only [RedType.eval] at ih
      rw [ih]
      cases neg <;> simp <;> ring

theorem boundTerms_nil {neg : Bool} {l : Nat} {vars : Nat → Expr} :
    ∀ (cs : List Int) (i : Nat), boundTerms neg l vars cs i = [] →
    ∀ k, k < cs.length → i + k ≠ l → cs.getD k 0 = 0
  | [], _, _, k, hk, _ => by simp at hk
  | c :: cs, i, h, k, hk, hne => by
    unfold boundTerms at h
    by_cases hc : i = l ∨ sgn c = 0
    · rw [if_pos hc] at h
      cases k with
      | zero =>
        rcases hc with hc | hc
        · exact absurd hc (by simpa using hne)
        · simpa using (sgn_eq_zero c).mp hc
      | succ k =>
        have := boundTerms_nil cs (i + 1) h k (by simpa using hk) (by omega)
        simpa using this
    · rw [if_neg hc] at h; cases h

theorem dotFrom_zero : ∀ (cs : List Int) (i : Nat) (x : Point),
    (∀ k, k < cs.length → cs.getD k 0 ≠ 0 → x (i + k) = 0) → dotFrom cs i x = 0
  | [], _, _, _ => rfl
  | c :: cs, i, x, h => by
    simp only [dotFrom]
    rw [dotFrom_zero cs (i + 1) x (fun k hk hne => by
      have := h (k + 1) (by simpa using hk) (by simpa using hne)
      rwa [show i + (k + 1) = i + 1 + k by omega] at this)]
    by_cases hc : c = 0
    · simp [hc]
    · have := h 0 (by simp) (by simpa using hc)
      simp only [Nat.add_zero] at this; rw [this]; simp

/-- Summary of `clast_bound_from_constraint`: the expression is the quotient of
`num = -(±)(value of the rest)` by the absolute value of the coefficient, rounded up for lower
bounds, down for upper bounds, truncated for equalities. -/
theorem bound_eval (r : Row) (l : Nat) (vars : Nat → Expr) (e : Expr)
    (he : boundFromConstraint r l vars = some e) (env : Env) (x : Point)
    (hx : ∀ i, i ≠ l → r.at i ≠ 0 → (vars i).eval env = x i) :
    let a := r.at l
    let s := r.val (Function.update x l 0)
    a ≠ 0 ∧
    (0 < a → r.isEq = false → e.eval env = ceild (-s) a) ∧
    (a < 0 → r.isEq = false → e.eval env = floord s (-a)) ∧
    (0 < a → r.isEq = true → e.eval env = (-s).tdiv a) ∧
    (a < 0 → r.isEq = true → e.eval env = s.tdiv (-a)) := by
  intro a s
  unfold boundFromConstraint at he
  have haa : r.at l = a := rfl
  clear_value a
  dsimp only at he
  simp only [haa] at he
  by_cases ha0 : sgn a = 0
  · rw [if_pos ha0] at he; cases he
  rw [if_neg ha0] at he
  have ha : a ≠ 0 := fun h => ha0 ((sgn_eq_zero a).mpr h)
  have hx' : ∀ k, k < r.coef.length → 0 + k ≠ l → r.coef.getD k 0 ≠ 0 →
      (vars (0 + k)).eval env = x (0 + k) := by
    intro k _ h1 h2
    simp only [Nat.zero_add] at h1 ⊢
    exact hx k h1 h2
  have hsum := fun neg => boundTerms_sum env neg l vars x r.coef 0 hx'
  have hdiv1 : ∀ n : Int, ceild n 1 = n := fun n => by rw [ceild_eq n 1 (by omega)]; omega
  have hdiv2 : ∀ n : Int, floord n 1 = n := fun n => by rw [floord_eq n 1 (by omega)]; omega
  refine ⟨ha, ?_⟩
  have hs : s = dotFrom r.coef 0 (Function.update x l 0) + r.cst := rfl
  generalize hneg : (decide (sgn a > 0)) = neg at he
  have hsumn := hsum neg
  generalize hel : boundTerms neg l vars r.coef 0 = elts at he hsumn
  have hnegt : neg = true ↔ 0 < a := by
    rw [← hneg, decide_eq_true_iff]; exact sgn_pos a
  -- numerator and denominator
  generalize hnum : (if neg then -r.cst else r.cst) = num at he
  generalize hden : (if neg then a else -a) = den at he
  have hdenpos : 0 < den := by
    rw [← hden]; split
    · exact hnegt.mp ‹_›
    · have : ¬ 0 < a := fun h => by have := hnegt.mpr h; contradiction
      omega
  -- value of the whole sum
  have hN : RedType.eval .sum (evalList env elts) + num = if neg then -s else s := by
    rw [hsumn, ← hnum, hs]
    cases neg <;> simp <;> ring
  have main : ∀ e : Expr, ∀ v : Int, e.eval env = v →
      (r.isEq = false → 0 < a → v = ceild (if neg then -s else s) den) →
      (r.isEq = false → a < 0 → v = floord (if neg then -s else s) den) →
      (r.isEq = true → v = (if neg then -s else s).tdiv den) →
      (0 < a → r.isEq = false → e.eval env = ceild (-s) a) ∧
      (a < 0 → r.isEq = false → e.eval env = floord s (-a)) ∧
      (0 < a → r.isEq = true → e.eval env = (-s).tdiv a) ∧
      (a < 0 → r.isEq = true → e.eval env = s.tdiv (-a)) := by
    intro e v hv h1 h2 h3
    rw [hv]
    refine ⟨fun p q => ?_, fun p q => ?_, fun p q => ?_, fun p q => ?_⟩
    · have hn := hnegt.mpr p
      rw [h1 q p, hn, ← hden, hn]; simp
    · have hn : neg = false := by
        cases hn : neg
        · rfl
        · have := hnegt.mp hn; omega
      rw [h2 q p, hn, ← hden, hn]; simp
    · have hn := hnegt.mpr p
      rw [h3 q, hn, ← hden, hn]; simp
    · have hn : neg = false := by
        cases hn : neg
        · rfl
        · have := hnegt.mp hn; omega
      rw [h3 q, hn, ← hden, hn]; simp
  by_cases hemp : elts.isEmpty = true
  · -- constant bound
    rw [if_neg (by simp [hemp])] at he
    have hnil : elts = [] := List.isEmpty_iff.mp hemp
    rw [hnil] at hN
    have hN' : num = if neg then -s else s := by
      rw [← hN]; simp [evalList, RedType.eval]
    by_cases hn0 : sgn num = 0
    · rw [if_pos hn0] at he
      injection he with he; subst he
      have hz := (sgn_eq_zero num).mp hn0
      refine main _ 0 (by simp [Expr.eval, hz]) (fun _ _ => ?_) (fun _ _ => ?_) (fun _ => ?_)
      · rw [← hN', hz, ceild_eq _ _ hdenpos]; simp
      · rw [← hN', hz, floord_eq _ _ hdenpos]; simp
      · rw [← hN', hz]; simp
    · rw [if_neg hn0] at he
      have hn0' : num ≠ 0 := fun h => hn0 ((sgn_eq_zero num).mpr h)
      by_cases hd1 : den = 1
      · rw [if_neg (by simp [hd1])] at he
        injection he with he; subst he
        refine main _ num (by simp [Expr.eval]) (fun _ _ => ?_) (fun _ _ => ?_) (fun _ => ?_)
        · rw [← hN', hd1, hdiv1]
        · rw [← hN', hd1, hdiv2]
        · rw [← hN', hd1]; simp
      · rw [if_pos hd1] at he
        obtain hq | hq : r.isEq = false ∨ r.isEq = true := by cases r.isEq <;> simp
        · -- inequality
          rw [hq] at he
          simp only [Bool.not_false, if_true] at he
          by_cases hdv : isDivisibleBy num den = true
          · rw [if_pos hdv] at he
            injection he with he; subst he
            have hm : num.tmod den = 0 := by simpa [isDivisibleBy] using hdv
            obtain ⟨q, hq'⟩ := Int.dvd_of_tmod_eq_zero hm
            have hqe : num.tdiv den = q := by
              rw [hq']; exact Int.mul_tdiv_cancel_left q (by omega)
            refine main _ q (by simp [Expr.eval, hqe]) (fun _ _ => ?_) (fun _ _ => ?_)
              (fun h => by rw [hq] at h; cases h)
            · rw [← hN', ceild_eq _ _ hdenpos, hq', ← Int.mul_neg,
                Int.mul_ediv_cancel_left _ (by omega)]; omega
            · rw [← hN', floord_eq _ _ hdenpos, hq', Int.mul_ediv_cancel_left _ (by omega)]
          · rw [if_neg hdv] at he
            have hm : num.tmod den ≠ 0 := by simpa [isDivisibleBy] using hdv
            have hndvd : ¬ den ∣ num := fun h => hm (Int.tmod_eq_zero_of_dvd h)
            have hfl := Int.mul_ediv_add_emod num den
            have hem0 := Int.emod_nonneg num (Int.ne_of_gt hdenpos)
            have hem1 := Int.emod_lt_of_pos num hdenpos
            have hemne : num % den ≠ 0 := fun h => hndvd (Int.dvd_of_emod_eq_zero h)
            have hce : -((-num) / den) = num / den + 1 := by
              have : (-num) / den = -(num / den + 1) := by
                have hpos : 0 < num % den := by omega
                rw [Int.ediv_eq_iff_of_pos hdenpos]
                constructor <;> nlinarith
              omega
            by_cases hnn : sgn num < 0
            · rw [if_pos hnn] at he
              have hlt : num < 0 := by
                unfold sgn at hnn; split at hnn
                · omega
                · split at hnn <;> omega
              have htd : num.tdiv den = num / den + 1 := by
                have h1 : num.tdiv den = -((-num).tdiv den) := by rw [Int.neg_tdiv]; omega
                rw [h1, Int.tdiv_eq_ediv_of_nonneg (by omega)]
                exact hce
              by_cases hap : sgn a > 0
              · rw [if_pos hap] at he
                injection he with he; subst he
                refine main _ _ rfl (fun _ _ => ?_) (fun _ p => ?_)
                  (fun h => by rw [hq] at h; cases h)
                · simp only [Expr.eval]
                  rw [← hN', ceild_eq _ _ hdenpos, hce, htd]
                · have := (sgn_pos a).mp hap; omega
              · rw [if_neg hap] at he
                injection he with he; subst he
                refine main _ _ rfl (fun _ p => ?_) (fun _ p => ?_)
                  (fun h => by rw [hq] at h; cases h)
                · exact absurd ((sgn_pos a).mpr p) hap
                · simp only [Expr.eval]
                  rw [← hN', floord_eq _ _ hdenpos, htd]; omega
            · rw [if_neg hnn] at he
              have hge : 0 ≤ num := by
                by_contra hc
                apply hnn
                unfold sgn; rw [if_neg (by omega), if_pos (by omega)]; omega
              have htd : num.tdiv den = num / den := Int.tdiv_eq_ediv_of_nonneg hge
              by_cases hap : sgn a > 0
              · rw [if_pos hap] at he
                injection he with he; subst he
                refine main _ _ rfl (fun _ _ => ?_) (fun _ p => ?_)
                  (fun h => by rw [hq] at h; cases h)
                · simp only [Expr.eval]
                  rw [← hN', ceild_eq _ _ hdenpos, hce, htd]
                · have := (sgn_pos a).mp hap; omega
              · rw [if_neg hap] at he
                injection he with he; subst he
                refine main _ _ rfl (fun _ p => ?_) (fun _ p => ?_)
                  (fun h => by rw [hq] at h; cases h)
                · exact absurd ((sgn_pos a).mpr p) hap
                · simp only [Expr.eval]
                  rw [← hN', floord_eq _ _ hdenpos, htd]
        · rw [hq] at he
          simp only [Bool.not_true, Bool.false_eq_true, if_false] at he
          injection he with he; subst he
          refine main _ _ rfl (fun h => by rw [hq] at h; cases h)
            (fun h => by rw [hq] at h; cases h) (fun _ => ?_)
          simp only [Expr.eval, BinType.eval]
          rw [← hN']
  · rw [if_pos (by simpa using hemp)] at he
    have hred : Expr.eval env (.red .sum (if sgn num ≠ 0 then elts ++ [.cst num] else elts)) =
        if neg then -s else s := by
      rw [← hN]
      simp only [Expr.eval]
      by_cases hn0 : sgn num = 0
      · rw [if_neg (by simpa using hn0), (sgn_eq_zero num).mp hn0]; simp
      · rw [if_pos hn0, evalList_append, sum_append]
        simp [evalList, RedType.eval, Expr.eval]
    generalize (Expr.red .sum (if sgn num ≠ 0 then elts ++ [.cst num] else elts)) = red at he hred
    by_cases hu : ¬ (a = 1) ∧ ¬ (a = -1)
    · rw [if_pos hu] at he
      obtain hq | hq : r.isEq = false ∨ r.isEq = true := by cases r.isEq <;> simp
      · rw [hq] at he
        simp only [Bool.not_false, if_true] at he
        by_cases hap : sgn a > 0
        · rw [if_pos hap] at he
          injection he with he; subst he
          refine main _ _ rfl (fun _ _ => ?_) (fun _ p => ?_) (fun h => by rw [hq] at h; cases h)
          · simp only [Expr.eval, BinType.eval, hred]
          · have := (sgn_pos a).mp hap; omega
        · rw [if_neg hap] at he
          injection he with he; subst he
          refine main _ _ rfl (fun _ p => ?_) (fun _ _ => ?_) (fun h => by rw [hq] at h; cases h)
          · exact absurd ((sgn_pos a).mpr p) hap
          · simp only [Expr.eval, BinType.eval, hred]
      · rw [hq] at he
        simp only [Bool.not_true, Bool.false_eq_true, if_false] at he
        injection he with he; subst he
        refine main _ _ rfl (fun h => by rw [hq] at h; cases h)
          (fun h => by rw [hq] at h; cases h) (fun _ => ?_)
        simp only [Expr.eval, BinType.eval, hred]
    · rw [if_neg hu] at he
      injection he with he; subst he
      have hd1 : den = 1 := by
        rw [← hden]
        by_cases h1 : a = 1
        · rw [if_pos (hnegt.mpr (by omega))]; exact h1
        · have h2 : a = -1 := by by_contra h2; exact hu ⟨h1, h2⟩
          have : ¬ neg = true := fun h => by have := hnegt.mp h; omega
          rw [if_neg this]; omega
      refine main _ _ hred (fun _ _ => ?_) (fun _ _ => ?_) (fun _ => ?_)
      · rw [hd1, hdiv1]
      · rw [hd1, hdiv2]
      · rw [hd1]; simp

theorem bound_none (r : Row) (l : Nat) (vars : Nat → Expr) :
    boundFromConstraint r l vars = none ↔ r.at l = 0 := by
  unfold boundFromConstraint
  rw [← sgn_eq_zero]
  by_cases h : sgn (r.at l) = 0
  · simp [h]
  · simp only [h, if_false, iff_false]
    repeat' split
    all_goals simp

end Verif.Bound
