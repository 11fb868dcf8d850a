import Verif.Model.ClastSem
import Verif.Lemmas.Bound
import Mathlib.Algebra.BigOperators.Intervals
import Mathlib.Algebra.BigOperators.Ring.Finset
import Mathlib.Algebra.BigOperators.Group.Finset.Basic
import Mathlib.Data.Int.ModEq
import Mathlib.Tactic.Ring
import Mathlib.Tactic.Linarith

/-!
# Correctness of the modulo guards
-/

namespace Verif.ClastGen

open Verif.IntOps Verif.Clast Verif.Bound

theorem dotFrom_eq_sum : ∀ (cs : List Int) (i : Nat) (x : Point),
    dotFrom cs i x = ∑ k ∈ Finset.range cs.length, cs.getD k 0 * x (i + k)
  | [], i, x => by simp [dotFrom]
  | c :: cs, i, x => by
    simp only [dotFrom, List.length_cons]
    rw [Finset.sum_range_succ', dotFrom_eq_sum cs (i + 1) x]
    simp only [List.getD_cons_zero, Nat.add_zero, List.getD_cons_succ]
    rw [add_comm]
    congr 1
    apply Finset.sum_congr rfl
    intro k _
    rw [show i + (k + 1) = i + 1 + k by omega]

theorem fdr_eq (a m : Int) (hm : 0 < m) : fdr a m = a % m := by
  unfold fdr; rw [fdivR_eq a m hm]; rfl

theorem getD_set (l : List Int) (i k : Nat) (v : Int) :
    (l.set i v).getD k 0 = if k = i ∧ i < l.length then v else l.getD k 0 := by
  simp only [List.getD_eq_getElem?_getD, List.getElem?_set]
  by_cases h : i = k
  · subst h
    by_cases h2 : i < l.length
    · simp [h2]
    · simp [h2]
  · have : ¬ k = i := fun h' => h h'.symm
    simp [h, this]

theorem getD_mapIdx (l : List Int) (f : Nat → Int → Int) (k : Nat) :
    (l.mapIdx f).getD k 0 = if k < l.length then f k (l.getD k 0) else 0 := by
  simp only [List.getD_eq_getElem?_getD, List.getElem?_mapIdx]
  by_cases h : k < l.length
  · simp [h]
  · simp [h]

theorem getD_map (l : List Int) (f : Int → Int) (k : Nat) :
    (l.map f).getD k 0 = if k < l.length then f (l.getD k 0) else 0 := by
  simp only [List.getD_eq_getElem?_getD, List.getElem?_map]
  by_cases h : k < l.length
  · simp [h]
  · simp [h]

/-- Changing coefficients by multiples of `m` changes the affine form by a multiple of `m`. -/
theorem dot_congr_mod (a b : List Int) (hl : a.length = b.length) (m : Int) (x : Point)
    (h : ∀ k, k < a.length → m ∣ a.getD k 0 * x k - b.getD k 0 * x k) :
    m ∣ dotFrom a 0 x - dotFrom b 0 x := by
  rw [dotFrom_eq_sum, dotFrom_eq_sum, ← hl, ← Finset.sum_sub_distrib]
  apply Finset.dvd_sum
  intro k hk
  simpa using h k (Finset.mem_range.mp hk)

theorem dvd_emod_sub (a m : Int) : m ∣ a % m - a := by
  have := Int.mul_ediv_add_emod a m
  exact ⟨-(a / m), by linarith [this, Int.mul_neg m (a / m)]⟩

theorem sum_take (c : Row) (col : Nat) (h : col + 1 ≤ c.coef.length) (x : Point) :
    dotFrom (c.coef.take (col + 1)) 0 x =
      (∑ k ∈ Finset.range col, c.at k * x k) + c.at col * x col := by
  rw [dotFrom_eq_sum, List.length_take, Nat.min_eq_left h, Finset.sum_range_succ]
  have e : ∀ k, k < col + 1 → (c.coef.take (col + 1)).getD k 0 = c.at k := by
    intro k hk
    simp only [Row.at, List.getD_eq_getElem?_getD, List.getElem?_take, hk, if_true]
  simp only [Nat.zero_add]
  rw [e col (by omega)]
  congr 1
  apply Finset.sum_congr rfl
  intro k hk
  rw [e k (by have := Finset.mem_range.mp hk; omega)]

theorem sum_drop (c : Row) (nb nPar : Nat) (h : nPar ≤ c.coef.length) (x : Point) :
    dotFrom (c.coef.drop (c.coef.length - nPar)) nb x =
      ∑ q ∈ Finset.range nPar, c.at (c.coef.length - nPar + q) * x (nb + q) := by
  rw [dotFrom_eq_sum, List.length_drop]
  have : c.coef.length - (c.coef.length - nPar) = nPar := by omega
  rw [this]
  apply Finset.sum_congr rfl
  intro k _
  simp only [Row.at, List.getD_eq_getElem?_getD, List.getElem?_drop]

/-- One step of elimination keeps the value modulo `m`. -/
theorem eliminate_val (line : List Int) (cst : Int) (nb nPar : Nat) (st : Option Stride) (col : Nat)
    (m : Int) (hm : 0 < m) (hlen : line.length = nb + nPar) (hcol : col < nb) (x : Point)
    (hst : ∀ s, st = some s → s.holds col nb nPar x) :
    (eliminate line cst nb st col m).1.length = line.length ∧
    m ∣ (dotFrom (eliminate line cst nb st col m).1 0 x + (eliminate line cst nb st col m).2) -
      (dotFrom line 0 x + cst) := by
  unfold eliminate
  cases st with
  | none => simp
  | some s =>
    simp only
    have hs := hst s rfl
    by_cases hdiv : isDivisibleBy s.stride m = true
    · rw [if_neg (by simp [hdiv])]
      have hms : m ∣ s.stride := Int.dvd_of_tmod_eq_zero (by simpa [isDivisibleBy] using hdiv)
      have hcl : col < line.length := by omega
      -- the column itself removed
      have hset : ∀ l : List Int, l.length = line.length →
          dotFrom (l.set col 0) 0 x = dotFrom l 0 x - l.getD col 0 * x col := by
        intro l hl
        rw [dotFrom_eq_sum, dotFrom_eq_sum, List.length_set]
        have : col ∈ Finset.range l.length := Finset.mem_range.mpr (by omega)
        rw [← Finset.sum_erase_add _ _ this, ← Finset.sum_erase_add (Finset.range l.length)
          (fun k => l.getD k 0 * x (0 + k)) this]
        have h1 : (l.set col 0).getD col 0 = 0 := by
          rw [getD_set]; simp [show col < l.length by omega]
        rw [h1]
        have h2 : ∑ k ∈ (Finset.range l.length).erase col, (l.set col 0).getD k 0 * x (0 + k) =
            ∑ k ∈ (Finset.range l.length).erase col, l.getD k 0 * x (0 + k) := by
          apply Finset.sum_congr rfl
          intro k hk
          have : k ≠ col := (Finset.mem_erase.mp hk).1
          rw [getD_set]; simp [this]
        rw [h2]; simp
      cases hcon : s.con with
      | none =>
        rw [Stride.holds, hcon] at hs
        simp only at hs ⊢
        refine ⟨by simp, ?_⟩
        rw [hset line rfl, fdr_eq _ _ hm]
        have h1 := dvd_emod_sub (cst + line.getD col 0 * s.offset) m
        have h2 : m ∣ line.getD col 0 * (x col - s.offset) :=
          Dvd.dvd.mul_left (hms.trans hs) _
        have := Int.dvd_sub h1 h2
        have e : (cst + line.getD col 0 * s.offset) % m - (cst + line.getD col 0 * s.offset) -
            line.getD col 0 * (x col - s.offset) =
            (dotFrom line 0 x - line.getD col 0 * x col + (cst + line.getD col 0 * s.offset) % m) -
            (dotFrom line 0 x + cst) := by ring
        rwa [e] at this
      | some c =>
        rw [Stride.holds, hcon] at hs
        simp only at hs ⊢
        obtain ⟨hp, hcl2, hf, hv⟩ := hs
        refine ⟨by simp, ?_⟩
        set t := line.getD col 0 * s.factor with ht
        set w : Nat → Int := fun i => if i < col then c.at i
          else if nb ≤ i then c.at (i + c.coef.length - line.length) else 0 with hw
        set l1 := line.mapIdx (fun i a =>
            if i < col then fdr (a + t * c.at i) m
            else if nb ≤ i then fdr (a + t * c.at (i + c.coef.length - line.length)) m
            else a) with hl1
        have hl1len : l1.length = line.length := by simp [hl1]
        have hgetD : ∀ k, k < line.length → m ∣ l1.getD k 0 - (line.getD k 0 + t * w k) := by
          intro k hk
          rw [hl1, getD_mapIdx, if_pos hk]
          simp only [hw]
          split
          · rw [fdr_eq _ _ hm]; exact dvd_emod_sub _ _
          · split
            · rw [fdr_eq _ _ hm]; exact dvd_emod_sub _ _
            · simp
        have hl1col : l1.getD col 0 = line.getD col 0 := by
          rw [hl1, getD_mapIdx, if_pos hcl]
          simp only [Nat.lt_irrefl, if_false]
          rw [if_neg (by omega)]
        rw [hset l1 hl1len, hl1col, fdr_eq _ _ hm]
        -- sums
        have hsum : m ∣ dotFrom l1 0 x - (dotFrom line 0 x +
            t * ∑ k ∈ Finset.range line.length, w k * x k) := by
          rw [dotFrom_eq_sum, dotFrom_eq_sum, hl1len, Finset.mul_sum, ← Finset.sum_add_distrib,
            ← Finset.sum_sub_distrib]
          apply Finset.dvd_sum
          intro k hk
          have := hgetD k (Finset.mem_range.mp hk)
          have h3 := Dvd.dvd.mul_right this (x k)
          simp only [Nat.zero_add]
          convert h3 using 1; ring
        have hwsum : ∑ k ∈ Finset.range line.length, w k * x k =
            Stride.conVal c col nb nPar x - c.at col * x col - c.cst := by
          unfold Stride.conVal
          rw [sum_take c col (by omega), sum_drop c nb nPar hp, hlen, Finset.sum_range_add]
          have e1 : ∑ k ∈ Finset.range nb, w k * x k = ∑ k ∈ Finset.range col, c.at k * x k := by
            have : Finset.range col ⊆ Finset.range nb := Finset.range_subset_range.mpr (by omega)
            rw [← Finset.sum_subset this]
            · apply Finset.sum_congr rfl
              intro k hk
              simp only [hw, if_pos (Finset.mem_range.mp hk)]
            · intro k hk hk'
              simp only [hw]
              rw [if_neg (fun h => hk' (Finset.mem_range.mpr h)),
                if_neg (by have := Finset.mem_range.mp hk; omega)]
              simp
          have e2 : ∑ q ∈ Finset.range nPar, w (nb + q) * x (nb + q) =
              ∑ q ∈ Finset.range nPar, c.at (c.coef.length - nPar + q) * x (nb + q) := by
            apply Finset.sum_congr rfl
            intro q hq
            have hq' := Finset.mem_range.mp hq
            simp only [hw]
            rw [if_neg (by omega), if_pos (by omega),
              show nb + q + c.coef.length - line.length = c.coef.length - nPar + q by omega]
          rw [e1, e2]; ring
        rw [hwsum] at hsum
        have h1 := dvd_emod_sub (cst + t * c.cst) m
        have h2 : m ∣ t * Stride.conVal c col nb nPar x := Dvd.dvd.mul_left (hms.trans hv) _
        have h3 : m ∣ line.getD col 0 * x col * (s.factor * c.at col + 1) :=
          Dvd.dvd.mul_left (hms.trans hf) _
        have := Int.dvd_sub (Int.dvd_add (Int.dvd_add hsum h1) h2) h3
        convert this using 1
        rw [ht]; ring
    · rw [if_pos (by simpa using hdiv)]; simp

/-- Columns with a non-zero coefficient after one elimination step. -/
theorem eliminate_support (line : List Int) (cst : Int) (nb nPar : Nat) (st : Option Stride)
    (col : Nat) (m : Int) (hm : 0 < m) (hlen : line.length = nb + nPar) (hcol : col < nb)
    (P : Nat → Prop) (hline : ∀ i, line.getD i 0 ≠ 0 → P i) (hpar : ∀ i, nb ≤ i → P i)
    (hst : ∀ s c, st = some s → s.con = some c → ∀ i, i < col → c.at i ≠ 0 → P i) :
    ∀ i, (eliminate line cst nb st col m).1.getD i 0 ≠ 0 → P i := by
  unfold eliminate
  cases st with
  | none => exact hline
  | some s =>
    simp only
    split
    · exact hline
    · cases hcon : s.con with
      | none =>
        simp only
        intro i hi
        rw [getD_set] at hi
        split at hi
        · exact absurd rfl hi
        · exact hline i hi
      | some c =>
        simp only
        intro i hi
        rw [getD_set] at hi
        split at hi
        · exact absurd rfl hi
        · rw [getD_mapIdx] at hi
          split at hi
          · split at hi
            · rename_i h1 h2 h3
              by_cases hz : line.getD i 0 = 0
              · by_cases hc : c.at i = 0
                · rw [hz, hc, fdr_eq _ _ hm] at hi; simp at hi
                · exact hst s c rfl hcon i h3 hc
              · exact hline i hz
            · split at hi
              · exact hpar i ‹_›
              · exact hline i hi
          · exact absurd rfl hi

/-- The promise of all strides used. -/
def StridesHold (strides : Nat → Option Stride) (k nb nPar : Nat) (x : Point) : Prop :=
  ∀ i, i < k → ∀ s, strides i = some s → s.holds i nb nPar x

theorem eliminateAll_val (nb nPar : Nat) (strides : Nat → Option Stride) (m : Int) (hm : 0 < m)
    (x : Point) : ∀ (k : Nat) (lc : List Int × Int), k ≤ nb → lc.1.length = nb + nPar →
    StridesHold strides k nb nPar x →
    (eliminateAll nb strides m k lc).1.length = lc.1.length ∧
    m ∣ (dotFrom (eliminateAll nb strides m k lc).1 0 x + (eliminateAll nb strides m k lc).2) -
      (dotFrom lc.1 0 x + lc.2)
  | 0, lc, _, _, _ => by simp [eliminateAll]
  | k + 1, lc, hk, hl, hs => by
    unfold eliminateAll
    obtain ⟨h1, h2⟩ := eliminate_val lc.1 lc.2 nb nPar (strides k) k m hm hl (by omega) x
      (fun s hs' => hs k (by omega) s hs')
    obtain ⟨h3, h4⟩ := eliminateAll_val nb nPar strides m hm x k
      (eliminate lc.1 lc.2 nb (strides k) k m) (by omega) (by omega)
      (fun i hi s hs' => hs i (by omega) s hs')
    refine ⟨by omega, ?_⟩
    have := Int.dvd_add h4 h2
    convert this using 1; ring

theorem eliminateAll_support (nb nPar : Nat) (strides : Nat → Option Stride) (m : Int) (hm : 0 < m)
    (P : Nat → Prop) (hpar : ∀ i, nb ≤ i → P i) :
    ∀ (k : Nat) (lc : List Int × Int), k ≤ nb → lc.1.length = nb + nPar →
    (∀ j, j < k → ∀ s c, strides j = some s → s.con = some c → ∀ i, i < j → c.at i ≠ 0 → P i) →
    (∀ i, lc.1.getD i 0 ≠ 0 → P i) →
    ∀ i, (eliminateAll nb strides m k lc).1.getD i 0 ≠ 0 → P i
  | 0, lc, _, _, _, h => h
  | k + 1, lc, hk, hl, hs, h => by
    unfold eliminateAll
    have hlen : (eliminate lc.1 lc.2 nb (strides k) k m).1.length = lc.1.length := by
      unfold eliminate; cases strides k with
      | none => rfl
      | some s =>
        simp only; split
        · rfl
        · cases s.con <;> simp
    apply eliminateAll_support nb nPar strides m hm P hpar k _ (by omega) (by omega)
      (fun j hj => hs j (by omega))
    exact eliminate_support lc.1 lc.2 nb nPar (strides k) k m hm hl (by omega) P h hpar
      (fun s c h1 h2 => hs k (by omega) s c h1 h2)

theorem modTerms_sum (nm : Names) (nb : Nat) (env : Env) (x : Point) :
    ∀ (cs : List Int) (i : Nat),
    (∀ k, k < cs.length → cs.getD k 0 ≠ 0 →
      env (if i + k < nb then nm.at_ (i + k) else nm.param (i + k - nb)) = x (i + k)) →
    RedType.eval .sum (evalList env (modTerms nm nb cs i)) = dotFrom cs i x
  | [], i, _ => by simp [modTerms, evalList, RedType.eval, dotFrom]
  | c :: cs, i, h => by
    have ih := modTerms_sum nm nb env x cs (i + 1) (fun k hk h2 => by
      have := h (k + 1) (by simpa using hk) (by simpa using h2)
      rwa [show i + (k + 1) = i + 1 + k by omega] at this)
    unfold modTerms
    by_cases hc : c = 0
    · rw [if_pos hc, ih, hc]; simp [dotFrom]
    · rw [if_neg hc]
      have hv := h 0 (by simp) (by simpa using hc)
      simp only [Nat.add_zero] at hv
      simp only [RedType.eval] at ih
      simp only [evalList, RedType.eval, List.foldr_cons, Expr.eval, hv, dotFrom, ih]

theorem modTerms_nil (nm : Names) (nb : Nat) (x : Point) : ∀ (cs : List Int) (i : Nat),
    modTerms nm nb cs i = [] → dotFrom cs i x = 0
  | [], _, _ => rfl
  | c :: cs, i, h => by
    unfold modTerms at h
    by_cases hc : c = 0
    · rw [if_pos hc] at h
      simp only [dotFrom]
      rw [modTerms_nil nm nb x cs (i + 1) h, hc]; simp
    · rw [if_neg hc] at h; cases h

/-- The number tested modulo `m` by the guard for row `c` on column `col`: the affine form without the
column, with the sign and the constant of the upper bound. -/
def modArg (c : Row) (bound : Int) (col : Nat) (x : Point) : Int :=
  if 0 < c.at col then -(c.val (Function.update x col 0)) + (if c.isEq then 0 else bound)
  else c.val (Function.update x col 0)

theorem seqNeg_getD (l : List Int) (k : Nat) : (seqNeg l).getD k 0 = - l.getD k 0 := by
  unfold seqNeg
  rw [getD_map]
  split
  · rfl
  · rename_i h
    rw [List.getD_eq_default _ _ (by omega)]; simp

theorem dotFrom_neg : ∀ (l : List Int) (i : Nat) (x : Point),
    dotFrom (seqNeg l) i x = - dotFrom l i x
  | [], _, _ => by simp [seqNeg, dotFrom]
  | c :: cs, i, x => by
    have ih := dotFrom_neg cs (i + 1) x
    simp only [seqNeg, List.map_cons, dotFrom] at ih ⊢
    rw [ih]; ring

/-- What an outcome says about the tested number `V` and the intended argument `a`. -/
def ModOut.spec (o : ModOut) (env : Env) (pair : Bool) (bound m a V : Int) : Prop :=
  match o with
  | .ok => (V = 0 ∧ m ∣ a) ∨ (0 ≤ V ∧ V < m ∧ (if pair then V ≤ bound else V = 0))
  | .unsat => 0 ≤ V ∧ V < m ∧ ¬ (if pair then V ≤ bound else V = 0)
  | .test q => (if pair then (q.holds env ↔ V.tmod m ≤ bound) else (q.holds env ↔ V.tmod m = 0)) ∧
      ∃ e, q.lhs = .bin .mod e m ∧ e.eval env = V

/-- Everything about `insert_modulo_guard_constraint` in one statement: there is an integer `V`
congruent to `modArg` modulo `m` such that the outcome tests `V`. -/
theorem modGuardConstraint_spec (nm : Names) (strides : Nat → Option Stride) (sl : Nat) (pair : Bool)
    (bound : Int) (c : Row) (col : Nat) (o : ModOut)
    (ho : modGuardConstraint nm strides sl pair bound c col = some o)
    (hpar : nm.nPar ≤ c.coef.length) (hcol : col < c.coef.length - nm.nPar)
    (env : Env) (x : Point) (P : Nat → Prop)
    (hP : ∀ i, i < c.coef.length → P i → env (if i < c.coef.length - nm.nPar then nm.at_ i
      else nm.param (i - (c.coef.length - nm.nPar))) = x i)
    (hPpar : ∀ i, c.coef.length - nm.nPar ≤ i → P i)
    (hPc : ∀ i, i ≠ col → c.at i ≠ 0 → P i)
    (hst : StridesHold strides (if col > sl then sl else col) (c.coef.length - nm.nPar) nm.nPar x)
    (hPst : ∀ j, j < (if col > sl then sl else col) → ∀ s r, strides j = some s → s.con = some r →
      ∀ i, i < j → r.at i ≠ 0 → P i) :
    let m := cabs (c.at col)
    0 < m ∧ ∃ V : Int, m ∣ V - modArg c bound col x ∧
      o.spec env pair bound m (modArg c bound col x) V := by
  intro m
  unfold modGuardConstraint at ho
  dsimp only at ho
  have hlc : ∃ lc, lc = modGuardLine bound c col := ⟨_, rfl⟩
  obtain ⟨lc, hlc⟩ := hlc
  rw [← hlc] at ho
  unfold modGuardLine at hlc
  generalize hnb : c.coef.length - nm.nPar = nb at *
  have hlen : lc.1.length = c.coef.length := by
    rw [hlc]; split <;> simp [seqNeg]
  have hmm : -(lc.1.getD col 0) = if 0 < c.at col then c.at col else - c.at col := by
    rw [hlc]; split
    · simp only [seqNeg_getD]; simp [Row.at]
    · simp [Row.at]
  by_cases hmp : 0 < -(lc.1.getD col 0)
  · rw [if_pos hmp] at ho
    have hm : m = -(lc.1.getD col 0) := by
      show cabs (c.at col) = _
      rw [cabs_eq, hmm]; rw [hmm] at hmp
      split
      · rw [abs_of_pos (by assumption)]
      · rw [abs_of_nonpos (by omega)]
    rw [← hm] at ho hmp
    clear_value m
    injection ho with ho
    unfold modGuardReduced at ho
    refine ⟨hmp, ?_⟩
    -- value of the unreduced line without the column
    have hval : dotFrom (lc.1.set col 0) 0 x + lc.2 = modArg c bound col x := by
      have hset : dotFrom (lc.1.set col 0) 0 x = dotFrom lc.1 0 (Function.update x col 0) := by
        rw [dotFrom_eq_sum, dotFrom_eq_sum, List.length_set]
        apply Finset.sum_congr rfl
        intro k hk
        rw [getD_set]
        by_cases hkc : k = col
        · subst hkc; simp [Finset.mem_range.mp hk]
        · simp [hkc]
      rw [hset, hlc]
      unfold modArg Row.val
      split
      · rw [dotFrom_neg]; ring
      · rfl
    -- reduced line
    generalize hline : (lc.1.map (fun a => fdr a m)).set col 0 = line at ho
    generalize hcst : fdr lc.2 m = cst at ho
    have hlinelen : line.length = nb + nm.nPar := by
      rw [← hline]; simp only [List.length_set, List.length_map]; omega
    have hlined : m ∣ (dotFrom line 0 x + cst) - modArg c bound col x := by
      rw [← hval]
      have h1 : m ∣ dotFrom line 0 x - dotFrom (lc.1.set col 0) 0 x := by
        apply dot_congr_mod
        · rw [← hline]; simp
        · intro k hk
          rw [← hline, getD_set, getD_set, getD_map]
          have hk' : k < lc.1.length := by rw [← hline] at hk; simpa using hk
          by_cases hkc : k = col
          · subst hkc
            simp [hk']
          · simp only [hkc, false_and, if_false, hk', if_true]
            rw [fdr_eq _ _ hmp, ← Int.sub_mul]
            exact Dvd.dvd.mul_right (dvd_emod_sub _ _) _
      have h2 : m ∣ cst - lc.2 := by rw [← hcst, fdr_eq _ _ hmp]; exact dvd_emod_sub _ _
      have := Int.dvd_add h1 h2
      convert this using 1; ring
    have hsupp : ∀ i, line.getD i 0 ≠ 0 → P i := by
      intro i hi
      rw [← hline, getD_set, getD_map] at hi
      by_cases hic : i = col
      · subst hic
        exfalso; apply hi
        simp only [List.length_map]
        by_cases h : i < lc.1.length <;> simp [h]
      · simp only [hic, false_and, if_false] at hi
        apply hPc i hic
        intro h0
        apply hi
        split
        · have : lc.1.getD i 0 = 0 := by
            rw [hlc]; split
            · simp only [seqNeg_getD]; simp only [Row.at] at h0; rw [h0]; rfl
            · exact h0
          rw [this, fdr_eq _ _ hmp]; simp
        · rfl
    by_cases hall : (line.all (· == 0) && cst == 0) = true
    · rw [if_pos hall] at ho
      subst ho
      simp only [Bool.and_eq_true, List.all_eq_true, beq_iff_eq] at hall
      have hz : dotFrom line 0 x = 0 := by
        rw [dotFrom_eq_sum]
        apply Finset.sum_eq_zero
        intro k hk
        have : line.getD k 0 = 0 := by
          rw [List.getD_eq_getElem?_getD]
          rw [List.getElem?_eq_getElem (Finset.mem_range.mp hk)]
          exact hall.1 _ (List.getElem_mem _)
        rw [this]; simp
      rw [hz, hall.2] at hlined
      refine ⟨0, by simpa using hlined, Or.inl ⟨rfl, ?_⟩⟩
      have : m ∣ 0 + 0 - modArg c bound col x := hlined
      simpa using this
    · rw [if_neg hall] at ho
      generalize hk : (if col > sl then sl else col) = k at *
      have hkle : k ≤ nb := by rw [← hk]; split <;> omega
      obtain ⟨hel, hev⟩ := eliminateAll_val nb nm.nPar strides m hmp x k (line, cst) hkle hlinelen hst
      have hes := eliminateAll_support nb nm.nPar strides m hmp P hPpar k (line, cst) hkle hlinelen
        hPst hsupp
      have hcr : 0 ≤ (eliminateAll nb strides m k (line, cst)).2 ∧
          (eliminateAll nb strides m k (line, cst)).2 < m := by
        have h0 : 0 ≤ cst ∧ cst < m := by
          rw [← hcst, fdr_eq _ _ hmp]
          exact ⟨Int.emod_nonneg _ (by omega), Int.emod_lt_of_pos _ hmp⟩
        clear hel hev hes ho hst hPst hkle hk hsupp hlined hline hcst hall
        have gen : ∀ (k : Nat) (lc : List Int × Int), 0 ≤ lc.2 ∧ lc.2 < m →
            0 ≤ (eliminateAll nb strides m k lc).2 ∧ (eliminateAll nb strides m k lc).2 < m := by
          intro k
          induction k with
          | zero => intro lc h; exact h
          | succ k ih =>
            intro lc h
            unfold eliminateAll
            apply ih
            have fr : ∀ a, 0 ≤ fdr a m ∧ fdr a m < m := fun a => by
              rw [fdr_eq _ _ hmp]
              exact ⟨Int.emod_nonneg _ (by omega), Int.emod_lt_of_pos _ hmp⟩
            unfold eliminate
            cases strides k with
            | none => exact h
            | some s =>
              simp only; split
              · exact h
              · cases s.con with
                | none => exact fr _
                | some c => exact fr _
        exact gen k (line, cst) h0
      generalize eliminateAll nb strides m k (line, cst) = lc' at *
      have hV : m ∣ (dotFrom lc'.1 0 x + lc'.2) - modArg c bound col x := by
        have := Int.dvd_add hev hlined
        convert this using 1; ring
      have hlc'len : lc'.1.length = nb + nm.nPar := by rw [hel]; exact hlinelen
      unfold modGuardEmit at ho
      dsimp only at ho
      by_cases hemp : (modTerms nm nb lc'.1 0).isEmpty = true
      · rw [if_pos hemp] at ho
        have hz := modTerms_nil nm nb x lc'.1 0 (List.isEmpty_iff.mp hemp)
        rw [hz, Int.zero_add] at hV
        cases pair with
        | true =>
          simp only [if_true] at ho
          split at ho
          · subst ho
            exact ⟨lc'.2, hV, Or.inr ⟨hcr.1, hcr.2, by simpa using ‹lc'.2 ≤ bound›⟩⟩
          · subst ho
            exact ⟨lc'.2, hV, hcr.1, hcr.2, by simpa using ‹¬ lc'.2 ≤ bound›⟩
        | false =>
          simp only [Bool.false_eq_true, if_false] at ho
          split at ho
          · subst ho
            exact ⟨lc'.2, hV, Or.inr ⟨hcr.1, hcr.2, by
              simpa using (sgn_eq_zero _).mp ‹sgn lc'.2 = 0›⟩⟩
          · subst ho
            refine ⟨lc'.2, hV, hcr.1, hcr.2, ?_⟩
            simp only [Bool.false_eq_true, if_false]
            exact fun h => ‹¬ sgn lc'.2 = 0› ((sgn_eq_zero _).mpr h)
      · rw [if_neg hemp] at ho
        have hsum : Expr.eval env (.red .sum (if sgn lc'.2 = 0 then modTerms nm nb lc'.1 0
            else modTerms nm nb lc'.1 0 ++ [.cst lc'.2])) = dotFrom lc'.1 0 x + lc'.2 := by
          have ht := modTerms_sum nm nb env x lc'.1 0 (fun k hk hne => by
            simp only [Nat.zero_add]
            exact hP k (by omega) (hes k hne))
          simp only [Expr.eval]
          by_cases h0 : sgn lc'.2 = 0
          · rw [if_pos h0, ht, (sgn_eq_zero _).mp h0]; simp
          · rw [if_neg h0, evalList_append, sum_append, ht]
            simp [evalList, RedType.eval, Expr.eval]
        generalize (Expr.red .sum (if sgn lc'.2 = 0 then modTerms nm nb lc'.1 0
            else modTerms nm nb lc'.1 0 ++ [.cst lc'.2])) = r at ho hsum
        cases pair with
        | true =>
          simp only [if_true] at ho
          subst ho
          refine ⟨dotFrom lc'.1 0 x + lc'.2, hV, ?_, r, rfl, hsum⟩
          simp [Eqn.holds, Expr.eval, BinType.eval, hsum]
        | false =>
          simp only [Bool.false_eq_true, if_false] at ho
          subst ho
          refine ⟨dotFrom lc'.1 0 x + lc'.2, hV, ?_, r, rfl, hsum⟩
          simp [Eqn.holds, Expr.eval, BinType.eval, hsum]
  · rw [if_neg hmp] at ho; cases ho

end Verif.ClastGen
