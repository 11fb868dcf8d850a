import Verif.Lemmas.Modulo
import Verif.Lemmas.Exec
import Verif.Props.Bounds
import Mathlib.Tactic.IntervalCases

/-!
# C11-C15: guards and modulo guards

Specification: a row holds at a point of columns or not (`Row.holds`); a test of the generated program
is true or not in an environment (`Eqn.holds`, with the C `%`).
-/

namespace Verif.Props.Guards

open Verif.IntOps Verif.Clast Verif.Bound Verif.ClastGen Verif.Props.Bounds Verif.Props.Arith

/-- Does the outcome of a modulo guard let the guarded code execute in `env`? -/
def Allows (env : Env) : ModOut → Prop
  | .ok => True
  | .unsat => False
  | .test q => q.holds env

/-- The program variable printed for a column of a modulo guard with `nb` non-parameter columns. -/
def modName (nm : Names) (nb i : Nat) : String := if i < nb then nm.at_ i else nm.param (i - nb)

/-- The hypotheses under which a modulo guard for row `c` on column `col` is generated: the column
is not a parameter; `env` gives the columns in `P` their values at `x`; the columns used by the row
and by the stride constraints are in `P`; and the strides of the enclosing loops hold. -/
structure ModCtx (nm : Names) (strides : Nat → Option Stride) (sl : Nat) (c : Row) (col : Nat)
    (env : Env) (x : Point) (P : Nat → Prop) : Prop where
  par : nm.nPar ≤ c.coef.length
  col_lt : col < c.coef.length - nm.nPar
  nz : c.at col ≠ 0
  env_ok : ∀ i, i < c.coef.length → P i → env (modName nm (c.coef.length - nm.nPar) i) = x i
  params : ∀ i, c.coef.length - nm.nPar ≤ i → P i
  used : ∀ i, i ≠ col → c.at i ≠ 0 → P i
  strides_hold : ∀ i, i < col → i < sl → ∀ s, strides i = some s →
    s.holds i (c.coef.length - nm.nPar) nm.nPar x
  strides_used : ∀ j, j < col → j < sl → ∀ s r, strides j = some s → s.con = some r →
    ∀ i, i < j → r.at i ≠ 0 → P i

theorem modGuard_total (nm : Names) (strides : Nat → Option Stride) (sl : Nat) (pair : Bool)
    (bound : Int) (c : Row) (col : Nat) (hnz : c.at col ≠ 0) :
    ∃ o, modGuardConstraint nm strides sl pair bound c col = some o := by
  unfold modGuardConstraint
  dsimp only
  rw [if_pos]
  · exact ⟨_, rfl⟩
  · unfold modGuardLine
    split
    · simp only [seqNeg_getD]; simp only [Row.at] at *; omega
    · simp only [Row.at] at *; omega

theorem modGuard_spec {nm : Names} {strides : Nat → Option Stride} {sl : Nat} {pair : Bool}
    {bound : Int} {c : Row} {col : Nat} {o : ModOut} {env : Env} {x : Point} {P : Nat → Prop}
    (h : ModCtx nm strides sl c col env x P)
    (ho : modGuardConstraint nm strides sl pair bound c col = some o) :
    0 < cabs (c.at col) ∧ ∃ V : Int, cabs (c.at col) ∣ V - modArg c bound col x ∧
      o.spec env pair bound (cabs (c.at col)) (modArg c bound col x) V := by
  have key : ∀ i, i < (if col > sl then sl else col) → i < col ∧ i < sl := by
    intro i hi; split at hi <;> omega
  exact modGuardConstraint_spec nm strides sl pair bound c col o ho h.par h.col_lt env x P h.env_ok
    h.params h.used (fun i hi s hs => h.strides_hold i (key i hi).1 (key i hi).2 s hs)
    (fun j hj s r => h.strides_used j (key j hj).1 (key j hj).2 s r)

theorem tmod_zero_iff (V m : Int) : V.tmod m = 0 ↔ m ∣ V :=
  ⟨Int.dvd_of_tmod_eq_zero, Int.tmod_eq_zero_of_dvd⟩

theorem dvd_congr {m a b : Int} (h : m ∣ a - b) : m ∣ a ↔ m ∣ b := by
  constructor <;> intro h'
  · have := Int.dvd_sub h' h; simpa using this
  · have := Int.dvd_add h' h; simpa using this

/-- Solvability of an equality in one column is divisibility of the rest. -/
theorem solvable_iff (c : Row) (col : Nat) (x : Point) (hq : c.isEq = true) :
    (∃ v, c.holds (Function.update x col v)) ↔ cabs (c.at col) ∣ c.val (Function.update x col 0) := by
  unfold Row.holds
  simp only [hq, if_true]
  rw [cabs_eq, abs_dvd]
  constructor
  · rintro ⟨v, hv⟩; rw [Row.val_update] at hv; exact ⟨-v, by linarith [Int.mul_neg (c.at col) v]⟩
  · rintro ⟨k, hk⟩; exact ⟨-k, by rw [Row.val_update, hk]; ring⟩

/-- C12: the modulo guard for an equality is generated (no assertion fails), and what it lets through
is exactly the environments in which the equality has an integer solution. This covers tests in the
program as well as decisions at generation time, and the use of strides. -/
theorem C12_modulo_equality (nm : Names) (strides : Nat → Option Stride) (sl : Nat) (bound : Int)
    (c : Row) (col : Nat) (env : Env) (x : Point) (P : Nat → Prop)
    (h : ModCtx nm strides sl c col env x P) (hq : c.isEq = true) :
    ∃ o, modGuardConstraint nm strides sl false bound c col = some o ∧
      (Allows env o ↔ ∃ v, c.holds (Function.update x col v)) := by
  obtain ⟨o, ho⟩ := modGuard_total nm strides sl false bound c col h.nz
  refine ⟨o, ho, ?_⟩
  obtain ⟨hm, V, hV, hs⟩ := modGuard_spec h ho
  rw [solvable_iff c col x hq]
  have harg : cabs (c.at col) ∣ modArg c bound col x ↔
      cabs (c.at col) ∣ c.val (Function.update x col 0) := by
    unfold modArg
    rw [hq]
    split
    · simp
    · rfl
  rw [← harg, ← dvd_congr hV]
  cases o with
  | ok =>
    simp only [Allows, true_iff]
    rcases hs with ⟨h0, _⟩ | ⟨_, _, h3⟩
    · rw [h0]; exact Int.dvd_zero _
    · simp only [Bool.false_eq_true, if_false] at h3; rw [h3]; exact Int.dvd_zero _
  | unsat =>
    simp only [Allows, false_iff]
    obtain ⟨h1, h2, h3⟩ := hs
    simp only [Bool.false_eq_true, if_false] at h3
    intro hd
    exact h3 (Int.eq_zero_of_dvd_of_nonneg_of_lt h1 h2 hd)
  | test q =>
    simp only [Allows]
    obtain ⟨h1, _⟩ := hs
    simp only [Bool.false_eq_true, if_false] at h1
    rw [h1, tmod_zero_iff]

/-- Names for the examples: iterators `i`, `j`, one parameter `N`. -/
def exNm : Names := ⟨0, 1, fun k => ["i", "j", "k"].getD k "?", fun _ => "N"⟩
/-- Environments for the examples. -/
def exEnv (i j n : Int) : Env := fun s => if s = "i" then i else if s = "j" then j
  else if s = "N" then n else 0

-- `2 i + N = 3 k`: the guard is `(2i + N) % 3 == 0`, also for negative values.
example : ∃ q, modGuardConstraint exNm (fun _ => none) 0 false 0 ⟨true, [2, -3, 1], 0⟩ 1 =
    some (.test q) ∧ q.holds (exEnv (-4) 0 2) ∧ ¬ q.holds (exEnv (-4) 0 3) :=
  ⟨_, rfl, by decide, by decide⟩
-- the hypotheses of C12 for that row
example : ModCtx exNm (fun _ => none) 0 ⟨true, [2, -3, 1], 0⟩ 1 (exEnv (-4) 0 2)
    (fun k => [-4, 0, 2].getD k 0) (fun i => i = 0 ∨ 2 ≤ i) where
  par := by decide
  col_lt := by decide
  nz := by decide
  env_ok := by
    intro i hi _
    match i, hi with
    | 0, _ => decide
    | 1, _ => decide
    | 2, _ => decide
  params := by intro i hi; right; exact hi
  used := by
    intro i hi h
    match i with
    | 0 => left; rfl
    | 1 => exact absurd rfl hi
    | (n+2) => right; omega
  strides_hold := by intro i _ h; omega
  strides_used := by intro i _ h; omega

/-! ## C13 -/

theorem interval_iff (a m b : Int) (hm : 0 < m) : (∃ v, 0 ≤ a - m * v ∧ a - m * v ≤ b) ↔ a % m ≤ b := by
  have h1 := Int.mul_ediv_add_emod a m
  have h2 := Int.emod_nonneg a (show m ≠ 0 by omega)
  constructor
  · rintro ⟨v, hv1, hv2⟩
    have : v ≤ a / m := by rw [Int.le_ediv_iff_mul_le hm]; linarith [Int.mul_comm v m]
    have : m * v ≤ m * (a / m) := Int.mul_le_mul_of_nonneg_left this (by omega)
    linarith
  · intro h; exact ⟨a / m, by linarith, by linarith⟩

/-- The row lies between 0 and `bound` for some value of the column iff the argument does. -/
theorem pair_iff (c : Row) (bound : Int) (col : Nat) (x : Point) (hq : c.isEq = false)
    (hnz : c.at col ≠ 0) :
    (∃ v, 0 ≤ c.val (Function.update x col v) ∧ c.val (Function.update x col v) ≤ bound) ↔
      modArg c bound col x % cabs (c.at col) ≤ bound := by
  have hm : 0 < cabs (c.at col) := by rw [cabs_eq]; exact abs_pos.mpr hnz
  rw [← interval_iff _ _ _ hm]
  unfold modArg
  rw [hq]
  by_cases hp : 0 < c.at col
  · rw [if_pos hp, cabs_eq, abs_of_pos hp]
    simp only [Bool.false_eq_true, if_false]
    constructor
    · rintro ⟨v, h1, h2⟩
      rw [Row.val_update] at h1 h2
      exact ⟨v, by linarith, by linarith⟩
    · rintro ⟨v, h1, h2⟩
      refine ⟨v, ?_⟩
      rw [Row.val_update]
      exact ⟨by linarith, by linarith⟩
  · rw [if_neg hp, cabs_eq, abs_of_neg (by omega)]
    constructor
    · rintro ⟨v, h1, h2⟩
      rw [Row.val_update] at h1 h2
      exact ⟨v, by linarith, by linarith⟩
    · rintro ⟨v, h1, h2⟩
      refine ⟨v, ?_⟩
      rw [Row.val_update]
      exact ⟨by linarith, by linarith⟩

/-- C13, partial: for a pair of inequalities `0 <= row <= bound` that do not contradict each other (the row
is the upper or the lower one) the outcome lets through exactly the environments in which some integer value of the column puts
the row in that interval. Missing from C13: a test in the program is only covered where the operand of
its `%` is not negative; `C13_negative_operand` shows that it is wrong otherwise. -/
theorem C13_modulo_pair_partial (nm : Names) (strides : Nat → Option Stride) (sl : Nat) (bound : Int)
    (c : Row) (col : Nat) (env : Env) (x : Point) (P : Nat → Prop)
    (h : ModCtx nm strides sl c col env x P) (hq : c.isEq = false) (hb : 0 ≤ bound) :
    ∃ o, modGuardConstraint nm strides sl true bound c col = some o ∧
      ((∀ q e m, o = .test q → q.lhs = .bin .mod e m → 0 ≤ e.eval env) →
        (Allows env o ↔ ∃ v, 0 ≤ c.val (Function.update x col v) ∧
          c.val (Function.update x col v) ≤ bound)) := by
  obtain ⟨o, ho⟩ := modGuard_total nm strides sl true bound c col h.nz
  refine ⟨o, ho, ?_⟩
  intro hnn
  obtain ⟨hm, V, hV, hs⟩ := modGuard_spec h ho
  rw [pair_iff c bound col x hq h.nz]
  have hmod : modArg c bound col x % cabs (c.at col) = V % cabs (c.at col) :=
    (Int.modEq_iff_dvd).mpr hV
  rw [hmod]
  cases o with
  | ok =>
    simp only [Allows, true_iff]
    rcases hs with ⟨h0, hd⟩ | ⟨h1, h2, h3⟩
    · rw [h0]; simpa using hb
    · rw [Int.emod_eq_of_lt h1 h2]; simpa using h3
  | unsat =>
    simp only [Allows, false_iff]
    obtain ⟨h1, h2, h3⟩ := hs
    rw [Int.emod_eq_of_lt h1 h2]; simpa using h3
  | test q =>
    simp only [Allows]
    obtain ⟨h1, e, he, hev⟩ := hs
    simp only [if_true] at h1
    have := hnn q e _ rfl he
    rw [hev] at this
    rw [h1, Int.tmod_eq_emod_of_nonneg this]

/-- C13 is false of the code: for the pair `0 <= i - 4 k <= 1` the test is `i % 4 <= 1`, which is true
for `i = -1` although no integer `k` exists. -/
theorem C13_negative_operand :
    ∃ q, modGuardConstraint exNm (fun _ => none) 0 true 1 ⟨false, [1, -4, 0], 0⟩ 1 = some (.test q) ∧
      q.holds (exEnv (-1) 0 0) ∧
      ¬ ∃ v, (⟨false, [1, -4, 0], 0⟩ : Row).holds (Function.update (fun k => [-1, 0, 0].getD k 0) 1 v) ∧
        (⟨false, [-1, 4, 0], 1⟩ : Row).holds (Function.update (fun k => [-1, 0, 0].getD k 0) 1 v) := by
  refine ⟨_, rfl, by decide, ?_⟩
  rintro ⟨v, h1, h2⟩
  simp [Row.holds, Row.val, dotFrom, Function.update] at h1 h2
  omega

-- the same pair where the operand is not negative: `i = 5` passes, `i = 6` does not
example : ∃ q, modGuardConstraint exNm (fun _ => none) 0 true 1 ⟨false, [1, -4, 0], 0⟩ 1 =
    some (.test q) ∧ q.holds (exEnv 5 0 0) ∧ ¬ q.holds (exEnv 6 0 0) :=
  ⟨_, rfl, by decide, by decide⟩

/-! ## C15 -/

/-- C15: eliminating an iterator with the help of its stride changes neither the truth of the
divisibility condition nor the residue, at every point where the stride's promise holds; and, if the
stride is a multiple of the modulus, the iterator is gone. -/
theorem C15_eliminate_sound (line : List Int) (cst : Int) (nb nPar : Nat) (st : Option Stride)
    (col : Nat) (m : Int) (hm : 0 < m) (hlen : line.length = nb + nPar) (hcol : col < nb) (x : Point)
    (hst : ∀ s, st = some s → s.holds col nb nPar x) :
    ((dotFrom (eliminate line cst nb st col m).1 0 x + (eliminate line cst nb st col m).2) % m =
      (dotFrom line 0 x + cst) % m) ∧
    (m ∣ dotFrom (eliminate line cst nb st col m).1 0 x + (eliminate line cst nb st col m).2 ↔
      m ∣ dotFrom line 0 x + cst) ∧
    (∀ s, st = some s → m ∣ s.stride → (eliminate line cst nb st col m).1.getD col 0 = 0) := by
  obtain ⟨_, h2⟩ := eliminate_val line cst nb nPar st col m hm hlen hcol x hst
  refine ⟨((Int.modEq_iff_dvd).mpr h2).symm, dvd_congr h2, ?_⟩
  rintro s rfl hs
  unfold eliminate
  simp only
  have : isDivisibleBy s.stride m = true := by
    simp [isDivisibleBy, Int.tmod_eq_zero_of_dvd hs]
  rw [if_neg (by simp [this])]
  cases s.con with
  | none => simp only [getD_set]; simp [show col < line.length by omega]
  | some c => simp only [getD_set]; simp [show col < line.length by omega]

/-- C15: the same for all enclosing loops, as `insert_modulo_guard_constraint` does it. -/
theorem C15_eliminate_all_sound (nb nPar : Nat) (strides : Nat → Option Stride) (m : Int) (hm : 0 < m)
    (x : Point) (k : Nat) (line : List Int) (cst : Int) (hk : k ≤ nb) (hlen : line.length = nb + nPar)
    (hst : ∀ i, i < k → ∀ s, strides i = some s → s.holds i nb nPar x) :
    let r := eliminateAll nb strides m k (line, cst)
    (dotFrom r.1 0 x + r.2) % m = (dotFrom line 0 x + cst) % m := by
  obtain ⟨_, h2⟩ := eliminateAll_val nb nPar strides m hm x k (line, cst) hk hlen hst
  exact ((Int.modEq_iff_dvd).mpr h2).symm

-- `i` has stride 6 and offset 1; `2 i + j` modulo 3 becomes `j + 2`.
example : eliminate [2, 1, 0] 0 2 (some ⟨6, 0, 1, none⟩) 0 3 = ([0, 1, 0], 2) := by decide
-- stride given by the constraint `N + 2 j = 0 mod 3`, factor 1 (`1*2 + 1 = 0 mod 3`)
example : eliminate [0, 1, 0] 0 2 (some ⟨3, 1, 0, some ⟨true, [0, 2, 1], 0⟩⟩) 1 3 = ([0, 0, 1], 0) := by
  decide
example : (⟨3, 1, 0, some ⟨true, [0, 2, 1], 0⟩⟩ : Stride).holds 1 2 1 (fun k => [7, 2, 5].getD k 0) := by
  simp [Stride.holds, Row.at, Stride.conVal, dotFrom]

/-! ## C11 -/

/-- The row involves no earlier column and not the excluded one. -/
def App (D : Dom) (L : Nat) (i : Nat) (r : Row) : Prop :=
  r.involves i = true ∧ (∀ k, k < i → r.involves k = false) ∧ Row.involvesOpt r (guardCol D L) = false

/-- The equations of `insert_guard_constraint` for a side of column `i`. -/
def sideEqn (cx : Ctx) (D : Dom) (L : Nat) (copy : List Row) (i : Nat) (up : Bool) : Option Eqn :=
  (minmax cx.sort copy i (!up) (guardCol D L) false true none (D.vars cx.nm)).map
    (fun rhs => (⟨.term 1 (D.vars cx.nm i), rhs, if up then -1 else 1⟩ : Eqn))

theorem mem_guardRows (cx : Ctx) (D : Dom) (L : Nat) (copy : List Row) (i : Nat) (q : Eqn) :
    ∀ (rows : List Row) (mn mx : Bool), q ∈ guardRows cx D L copy i rows mn mx ↔
      (∃ r ∈ rows, App D L i r ∧ (L = 0 ∨ r.isEq = true) ∧
        individualEqn r i (D.vars cx.nm) = some q) ∨
      (mx = false ∧ (∃ r ∈ rows, App D L i r ∧ L ≠ 0 ∧ r.isEq = false ∧ 0 < r.at i) ∧
        sideEqn cx D L copy i false = some q) ∨
      (mn = false ∧ (∃ r ∈ rows, App D L i r ∧ L ≠ 0 ∧ r.isEq = false ∧ r.at i < 0) ∧
        sideEqn cx D L copy i true = some q)
  | [], mn, mx => by simp [guardRows]
  | r :: rs, mn, mx => by
    have ih := mem_guardRows cx D L copy i q rs
    unfold guardRows
    by_cases h1 : r.involves i = true
    swap
    · rw [if_pos (by simpa using h1), ih]
      have : ¬ App D L i r := fun h => h1 h.1
      simp [this]
    rw [if_neg (by simp [h1])]
    by_cases h2 : ((List.range i).any (fun k => r.involves k)) = true
    · rw [if_pos h2, ih]
      have : ¬ App D L i r := fun h => by
        simp only [List.any_eq_true, List.mem_range] at h2
        obtain ⟨k, hk, hk2⟩ := h2
        rw [h.2.1 k hk] at hk2; cases hk2
      simp [this]
    rw [if_neg h2]
    by_cases h3 : Row.involvesOpt r (guardCol D L) = true
    · rw [if_pos h3, ih]
      have : ¬ App D L i r := fun h => by rw [h.2.2] at h3; cases h3
      simp [this]
    rw [if_neg h3]
    have happ : App D L i r := ⟨h1, by
      intro k hk
      simp only [List.any_eq_true, List.mem_range, not_exists, not_and, Bool.not_eq_true] at h2
      exact h2 k hk, by simpa using h3⟩
    have hne : r.at i ≠ 0 := by simpa [Row.involves] using h1
    by_cases h4 : L = 0 ∨ r.isEq = true
    · rw [if_pos h4, List.mem_append, ih]
      have : ∀ P : Prop, ¬ (App D L i r ∧ L ≠ 0 ∧ r.isEq = false ∧ P) := by
        rintro P ⟨_, a, b, _⟩
        rcases h4 with h | h
        · exact a h
        · rw [h] at b; cases b
      simp only [List.mem_cons, exists_eq_or_imp, this, false_or, happ, h4, true_and,
        Option.mem_toList]
      have a1 : ¬ (L ≠ 0 ∧ r.isEq = false ∧ 0 < r.at i) := fun h => this _ ⟨happ, h⟩
      have a2 : ¬ (L ≠ 0 ∧ r.isEq = false ∧ r.at i < 0) := fun h => this _ ⟨happ, h⟩
      simp only [a1, a2, false_or]
      rw [or_assoc]
    rw [if_neg h4]
    have hL : L ≠ 0 := fun h => h4 (Or.inl h)
    have hq : r.isEq = false := by simpa using fun h => h4 (Or.inr h)
    by_cases h5 : (mx && r.isLower i) = true
    · rw [if_pos h5, ih]
      simp only [Bool.and_eq_true] at h5
      have hlo : 0 < r.at i := by simpa [Row.isLower] using h5.2
      have : ¬ r.at i < 0 := by omega
      simp [h5.1, this, hq, hL]
    rw [if_neg h5]
    by_cases h6 : (mn && r.isUpper i) = true
    · rw [if_pos h6, ih]
      simp only [Bool.and_eq_true] at h6
      have hlo : r.at i < 0 := by simpa [Row.isUpper] using h6.2
      have : ¬ 0 < r.at i := by omega
      simp [h6.1, this, hq, hL]
    rw [if_neg h6]
    dsimp only
    rw [List.mem_append, ih]
    by_cases hlo : 0 < r.at i
    · have hl : r.isLower i = true := by simpa [Row.isLower] using hlo
      have hmx : mx = false := by simpa [hl] using h5
      have : ¬ r.at i < 0 := by omega
      have hs : (minmax cx.sort copy i (!!r.isLower i) (guardCol D L) false true none (D.vars cx.nm)).map
          (fun rhs => (⟨.term 1 (D.vars cx.nm i), rhs, if (!r.isLower i) = true then -1 else 1⟩ : Eqn)) =
          sideEqn cx D L copy i false := by rw [hl]; rfl
      rw [hs, Option.mem_toList]
      simp only [hl, hmx, List.mem_cons, exists_eq_or_imp, happ, h4, hL, hq, hlo, this, ne_eq,
        not_false_eq_true, true_and, and_true, false_or, Bool.or_false, Bool.not_true, Bool.or_true,
        Bool.true_eq_false, and_false, false_and, true_or, Bool.false_or, reduceCtorEq]
      simp only [Bool.not_false, Bool.true_eq_false, false_and, false_or]
      exact or_left_comm
    · have hl : r.isLower i = false := by simpa [Row.isLower] using hlo
      have hup : r.at i < 0 := by omega
      have hmn : mn = false := by
        have : r.isUpper i = true := by simpa [Row.isUpper] using hup
        simpa [this] using h6
      have hs : (minmax cx.sort copy i (!!r.isLower i) (guardCol D L) false true none (D.vars cx.nm)).map
          (fun rhs => (⟨.term 1 (D.vars cx.nm i), rhs, if (!r.isLower i) = true then -1 else 1⟩ : Eqn)) =
          sideEqn cx D L copy i true := by rw [hl]; rfl
      rw [hs, Option.mem_toList]
      simp only [hl, hmn, List.mem_cons, exists_eq_or_imp, happ, h4, hL, hq, hlo, hup, ne_eq,
        not_false_eq_true, true_and, and_true, false_or, Bool.or_false, Bool.not_false, Bool.or_true,
        Bool.true_eq_false, and_false, false_and, true_or, Bool.false_or, reduceCtorEq]
      simp only [Bool.not_true, Bool.or_false, or_false]
      rw [or_comm, or_assoc]

theorem at_set (r : Row) (i k : Nat) (v : Int) (b : Bool) (cst : Int) (hi : r.at i ≠ 0) :
    (⟨b, r.coef.set i v, cst⟩ : Row).at k = if k = i then v else r.at k := by
  have : i < r.coef.length := by
    by_contra h
    apply hi
    simp only [Row.at]; exact List.getD_eq_default _ _ (by omega)
  simp only [Row.at, getD_set, this, and_true]

theorem val_set_zero (r : Row) (i : Nat) (v : Int) (b : Bool) (y : Point) :
    (⟨b, r.coef.set i v, r.cst⟩ : Row).val (Function.update y i 0) = r.val (Function.update y i 0) := by
  unfold Row.val
  simp only
  congr 1
  rw [dotFrom_eq_sum, dotFrom_eq_sum, List.length_set]
  apply Finset.sum_congr rfl
  intro k _
  rw [getD_set]
  by_cases hk : k = i
  · subst hk; simp
  · simp [hk]

theorem ceild_one (n : Int) : ceild n 1 = n := by rw [ceild_eq n 1 (by omega)]; omega
theorem floord_one (n : Int) : floord n 1 = n := by rw [floord_eq n 1 (by omega)]; omega

/-- An individual constraint in a guard means the constraint. -/
theorem individual_holds (r : Row) (i : Nat) (vars : Nat → Expr) (env : Env) (y : Point) (q : Eqn)
    (hi : r.at i ≠ 0) (hx : ∀ c, r.at c ≠ 0 → (vars c).eval env = y c)
    (hq : individualEqn r i vars = some q) : q.holds env ↔ r.holds y := by
  unfold individualEqn at hq
  dsimp only at hq
  simp only [Option.map_eq_some_iff] at hq
  obtain ⟨rhs, hb, rfl⟩ := hq
  have hat := fun k => at_set r i k (if r.at i < 0 then -1 else 1) r.isEq r.cst hi
  have hev := bound_eval _ i vars rhs hb env y (by
    intro k hk h
    rw [hat, if_neg hk] at h
    exact hx k h)
  dsimp only at hev
  rw [val_set_zero] at hev
  have hval : r.val y = r.val (Function.update y i 0) + r.at i * y i := by
    rw [← Row.val_update r i y (y i), Function.update_eq_self]
  rw [hat i, if_pos rfl] at hev
  unfold Row.holds Eqn.holds
  rw [hat i, if_pos rfl, hval]
  simp only [Expr.eval, hx i hi]
  generalize r.val (Function.update y i 0) = s at *
  generalize r.at i = a at *
  obtain ⟨-, h1, h2, h3, h4⟩ := hev
  by_cases ha : a < 0
  · simp only [ha, if_true] at h1 h2 h3 h4 ⊢
    obtain hb' | hb' : r.isEq = false ∨ r.isEq = true := by cases r.isEq <;> simp
    · rw [h2 (by decide) hb', hb']
      simp only [Int.neg_neg, floord_one]
      simp only [Bool.false_eq_true, if_false]
      norm_num
      constructor <;> intro h <;> linarith
    · rw [h4 (by decide) hb', hb']
      simp only [Int.neg_neg, if_true, Int.tdiv_one]
      norm_num
      constructor <;> intro h <;> linarith
  · simp only [ha, if_false] at h1 h2 h3 h4 ⊢
    obtain hb' | hb' : r.isEq = false ∨ r.isEq = true := by cases r.isEq <;> simp
    · rw [h1 (by decide) hb', hb']
      simp only [ceild_one]
      norm_num
      constructor <;> intro h <;> linarith
    · rw [h3 (by decide) hb', hb']
      simp only [if_true, Int.tdiv_one]
      norm_num
      constructor <;> intro h <;> linarith

theorem individual_exists (r : Row) (i : Nat) (vars : Nat → Expr) (hi : r.at i ≠ 0) :
    ∃ q, individualEqn r i vars = some q := by
  unfold individualEqn
  dsimp only
  obtain ⟨b, hb⟩ := bound_exists (r := ⟨r.isEq, r.coef.set i (if r.at i < 0 then -1 else 1), r.cst⟩)
    (l := i) vars (by rw [at_set r i i _ _ _ hi, if_pos rfl]; split <;> decide)
  exact ⟨_, by rw [hb]; rfl⟩

theorem valid_iff (D : Dom) (L i : Nat) (r : Row) (up : Bool) :
    validBound r i (!up) (guardCol D L) true = true ↔
      App D L i r ∧ r.isEq = false ∧ (if up then r.at i < 0 else 0 < r.at i) := by
  unfold validBound App
  have hs : (if (!up) = true then r.isLower i else r.isUpper i) = true ↔
      (if up then r.at i < 0 else 0 < r.at i) := by
    cases up <;> simp [Row.isLower, Row.isUpper]
  have hi : (if up then r.at i < 0 else 0 < r.at i) → r.involves i = true := by
    cases up <;> simp [Row.involves] <;> omega
  have hall : ((!true || (List.range i).all fun i => !r.involves i) = true) ↔
      ∀ k, k < i → r.involves k = false := by simp
  rw [Bool.and_eq_true, Bool.and_eq_true, Bool.and_eq_true, hall, hs, Bool.not_eq_true']
  cases guardCol D L with
  | none => simp only [Row.involvesOpt]; tauto
  | some g => simp only [Row.involvesOpt, Bool.not_eq_true']; tauto

theorem side_holds (cx : Ctx) (hsort : ∀ l, (cx.sort l).Perm l) (D : Dom) (L : Nat) (copy : List Row)
    (i : Nat) (up : Bool) (env : Env) (y : Point) (q : Eqn)
    (hx : ∀ r ∈ copy, Row.involvesOpt r (guardCol D L) = false → ∀ c, r.at c ≠ 0 →
      (D.vars cx.nm c).eval env = y c)
    (hi : (D.vars cx.nm i).eval env = y i)
    (hq : sideEqn cx D L copy i up = some q) :
    q.holds env ↔ ∀ r ∈ copy, App D L i r → r.isEq = false →
      (if up then r.at i < 0 else 0 < r.at i) → r.holds y := by
  unfold sideEqn at hq
  simp only [Option.map_eq_some_iff] at hq
  obtain ⟨rhs, hm, rfl⟩ := hq
  have hup : Function.update y i (y i) = y := Function.update_eq_self _ _
  cases up with
  | false =>
    have hab := minmax_above hsort copy i (guardCol D L) false true none (D.vars cx.nm) env (y i)
    simp only [Bool.not_false] at hm
    rw [hm] at hab
    simp only [AboveLb] at hab
    unfold Eqn.holds
    simp only [Expr.eval, hi, one_mul, Bool.false_eq_true, if_false]
    rw [if_pos (by decide), hab]
    constructor
    · intro h r hr happ hq hs
      obtain ⟨b, hb⟩ := bound_exists (D.vars cx.nm) (show r.at i ≠ 0 by omega)
      have hv := (valid_iff D L i r false).mpr ⟨happ, hq, hs⟩
      have := h _ (mem_collect.mpr ⟨r, hr, hv, b, hb, rfl⟩)
      have h5 := C05_lower r i _ b env y hb (fun c _ h => hx r hr happ.2.2 c h) hq hs (y i)
      rw [hup] at h5
      exact h5.mpr this
    · intro h e he
      obtain ⟨r, hr, hv, b, hb, he'⟩ := mem_collect.mp he
      have he' : e = b := he'
      subst he'
      obtain ⟨happ, hq, hs⟩ := (valid_iff D L i r false).mp hv
      have h5 := C05_lower r i _ e env y hb (fun c _ h => hx r hr happ.2.2 c h) hq hs (y i)
      rw [hup] at h5
      exact h5.mp (h r hr happ hq hs)
  | true =>
    have hab := minmax_below hsort copy i (guardCol D L) false true none (D.vars cx.nm) env (y i)
    simp only [Bool.not_true] at hm
    rw [hm] at hab
    simp only [BelowUb] at hab
    unfold Eqn.holds
    simp only [Expr.eval, hi, one_mul, if_true]
    rw [if_neg (by decide), if_neg (by decide), hab]
    constructor
    · intro h r hr happ hq hs
      obtain ⟨b, hb⟩ := bound_exists (D.vars cx.nm) (show r.at i ≠ 0 by omega)
      have hv := (valid_iff D L i r true).mpr ⟨happ, hq, hs⟩
      have := h _ (mem_collect.mpr ⟨r, hr, hv, b, hb, rfl⟩)
      have h5 := C05_upper r i _ b env y hb (fun c _ h => hx r hr happ.2.2 c h) hq hs (y i)
      rw [hup] at h5
      exact h5.mpr this
    · intro h e he
      obtain ⟨r, hr, hv, b, hb, he'⟩ := mem_collect.mp he
      have he' : e = b := he'
      subst he'
      obtain ⟨happ, hq, hs⟩ := (valid_iff D L i r true).mp hv
      have h5 := C05_upper r i _ e env y hb (fun c _ h => hx r hr happ.2.2 c h) hq hs (y i)
      rw [hup] at h5
      exact h5.mp (h r hr happ hq hs)

theorem side_exists (cx : Ctx) (D : Dom) (L : Nat) (copy : List Row) (i : Nat) (up : Bool)
    (r : Row) (hr : r ∈ copy) (happ : App D L i r) (hq : r.isEq = false)
    (hs : if up then r.at i < 0 else 0 < r.at i) : ∃ q, sideEqn cx D L copy i up = some q := by
  have hv := (valid_iff D L i r up).mpr ⟨happ, hq, hs⟩
  obtain ⟨b, hb⟩ := bound_exists (D.vars cx.nm) (show r.at i ≠ 0 by cases up <;> simp at hs <;> omega)
  have hm : b ∈ collectBounds copy i (!up) (guardCol D L) false true none (D.vars cx.nm) :=
    mem_collect.mpr ⟨r, hr, hv, b, hb, rfl⟩
  have hne : ¬ (collectBounds copy i (!up) (guardCol D L) false true none (D.vars cx.nm)).isEmpty =
      true := by rw [List.isEmpty_iff]; intro h; rw [h] at hm; cases hm
  unfold sideEqn minmax
  dsimp only
  rw [if_neg hne]
  exact ⟨_, rfl⟩

/-- Every row that involves some column is treated at its first one. -/
theorem first_col (r : Row) (h : ∃ c, r.at c ≠ 0) :
    ∃ i, r.involves i = true ∧ ∀ k, k < i → r.involves k = false := by
  classical
  refine ⟨Nat.find h, by simpa [Row.involves] using Nat.find_spec h, ?_⟩
  intro k hk
  have := Nat.find_min h hk
  simpa [Row.involves] using this

/-- C11: the conjunction of the equations of a guard is true in an environment exactly when all
constraints of the set that do not involve the scanned iterator hold. In particular, if there is no
equation at all, they always hold. The set may contain equalities, any level is allowed, and any
permutation may be used to sort. Hypotheses: the rows have no more columns than the set; a row without
variables is true (isl drops them, or makes the set empty); and the expressions of the columns used
evaluate to the columns' values. -/
theorem C11_guard_exact (cx : Ctx) (hsort : ∀ l, (cx.sort l).Perm l) (D : Dom) (L : Nat)
    (copy : List Row) (env : Env) (y : Point)
    (hlen : ∀ r ∈ copy, r.coef.length ≤ D.total cx.nm)
    (hconst : ∀ r ∈ copy, (∀ c, r.at c = 0) → r.holds y)
    (hx : ∀ r ∈ copy, Row.involvesOpt r (guardCol D L) = false → ∀ c, r.at c ≠ 0 →
      (D.vars cx.nm c).eval env = y c) :
    (∀ q ∈ guardEqns cx D L copy, q.holds env) ↔
      ∀ r ∈ copy, Row.involvesOpt r (guardCol D L) = false → r.holds y := by
  unfold guardEqns
  simp only [List.mem_flatMap, List.mem_range, mem_guardRows]
  constructor
  · intro h r hr hg
    by_cases hex : ∃ c, r.at c ≠ 0
    · obtain ⟨i, hi, hi2⟩ := first_col r hex
      have happ : App D L i r := ⟨hi, hi2, hg⟩
      have hne : r.at i ≠ 0 := by simpa [Row.involves] using hi
      have hit : i < D.total cx.nm := by
        by_contra hc
        apply hne
        have := hlen r hr
        simp only [Row.at]; exact List.getD_eq_default _ _ (by omega)
      by_cases h4 : L = 0 ∨ r.isEq = true
      · obtain ⟨q, hq⟩ := individual_exists r i (D.vars cx.nm) hne
        exact (individual_holds r i _ env y q hne (hx r hr hg) hq).mp
          (h q ⟨i, hit, Or.inl ⟨r, hr, happ, h4, hq⟩⟩)
      · have hL : L ≠ 0 := fun h => h4 (Or.inl h)
        have hq : r.isEq = false := by simpa using fun h => h4 (Or.inr h)
        by_cases hlo : 0 < r.at i
        · obtain ⟨q, hs⟩ := side_exists cx D L copy i false r hr happ hq (by simpa using hlo)
          exact (side_holds cx hsort D L copy i false env y q hx (hx r hr hg i hne) hs).mp
            (h q ⟨i, hit, Or.inr (Or.inl ⟨trivial, ⟨r, hr, happ, hL, hq, hlo⟩, hs⟩)⟩) r hr happ hq
            (by simpa using hlo)
        · have hup : r.at i < 0 := by omega
          obtain ⟨q, hs⟩ := side_exists cx D L copy i true r hr happ hq (by simpa using hup)
          exact (side_holds cx hsort D L copy i true env y q hx (hx r hr hg i hne) hs).mp
            (h q ⟨i, hit, Or.inr (Or.inr ⟨trivial, ⟨r, hr, happ, hL, hq, hup⟩, hs⟩)⟩) r hr happ hq
            (by simpa using hup)
    · exact hconst r hr (by simpa using hex)
  · intro h q ⟨i, _, hq⟩
    rcases hq with ⟨r, hr, happ, _, hq⟩ | ⟨_, ⟨r, hr, happ, _⟩, hs⟩ | ⟨_, ⟨r, hr, happ, _⟩, hs⟩
    · exact (individual_holds r i _ env y q (by simpa [Row.involves] using happ.1)
        (hx r hr happ.2.2) hq).mpr (h r hr happ.2.2)
    · exact (side_holds cx hsort D L copy i false env y q hx
        (hx r hr happ.2.2 i (by simpa [Row.involves] using happ.1)) hs).mpr
        (fun r' hr' happ' _ _ => h r' hr' happ'.2.2)
    · exact (side_holds cx hsort D L copy i true env y q hx
        (hx r hr happ.2.2 i (by simpa [Row.involves] using happ.1)) hs).mpr
        (fun r' hr' happ' _ _ => h r' hr' happ'.2.2)

/-- A way to round a quotient: all coefficients are split. -/
def plainFloor (d : DivDef) : (List Int × Int) × Option DivDef :=
  ((d.num.map (· / d.den), d.cst / d.den),
    if d.num.all (fun c => c % d.den == 0) then none
    else some ⟨d.num.map (· % d.den), d.cst % d.den, d.den⟩)

/-- A context for the examples: no sorting, no use of equalities, all options as by default. -/
def exCx : Ctx := ⟨exNm, true, true, false, 1, id, id, fun _ _ u _ b => some (u, b),
  plainFloor⟩

-- level 2 of a set over `i`, `j` and `N`: `j >= 0`, `i + N >= 0`, `i <= 7`, `i = 2N`.
example : guardEqns exCx ⟨2, [], []⟩ 2 [⟨false, [0, 1, 0], 0⟩, ⟨false, [1, 0, 1], 0⟩,
      ⟨false, [-1, 0, 0], 7⟩, ⟨true, [-1, 0, 2], 0⟩] =
    [⟨.term 1 (.name "i"), .red .max [.red .sum [.term (-1) (.name "N")]], 1⟩,
     ⟨.term 1 (.name "i"), .red .min [.cst 7], -1⟩,
     ⟨.term 1 (.name "i"), .red .sum [.term 2 (.name "N")], 0⟩] := by decide
-- nothing is emitted when all constraints involve the scanned iterator
example : guardEqns exCx ⟨2, [], []⟩ 2 [⟨false, [0, 1, 0], 0⟩] = [] := by decide
-- the hypotheses at a point
example : ∀ r ∈ [(⟨false, [0, 1, 0], 0⟩ : Row), ⟨false, [1, 0, 1], 0⟩],
    Row.involvesOpt r (guardCol ⟨2, [], []⟩ 2) = false → ∀ c, r.at c ≠ 0 →
      ((⟨2, [], []⟩ : Dom).vars exNm c).eval (exEnv 4 0 2) = (fun k => [4, 0, 2].getD k 0) c := by
  intro r hr hg c hc
  have : c < 3 := by
    by_contra h
    apply hc
    simp only [List.mem_cons, List.not_mem_nil, or_false] at hr
    rcases hr with rfl | rfl <;> simp only [Row.at] <;> exact List.getD_eq_default _ _ (by simp; omega)
  simp only [List.mem_cons, List.not_mem_nil, or_false] at hr
  rcases hr with rfl | rfl
  · exact absurd hg (by decide)
  · interval_cases c <;> decide

/-! ## C14 -/

/-- C14, partial: when the modulo condition of the equality (or pair of inequalities) that defines the
iterator of a level is found unsatisfiable, the whole loop, with everything inside, executes nothing
and changes nothing, in every environment. Missing from C14: conditions on existential columns, see
`C14_extra_guard_ignored`. -/
theorem C14_equation_unsat_partial (cx : Ctx) (icmp : Int → Int → Int) (L : Nat) (hL : 0 < L)
    (eqs : List (Nat × Row)) (strides : Nat → Option Stride) (D : Dom) (st : Option Stride)
    (otl : Bool) (block : List Nat) (inner : List Loop) (u : Row) (lo : Option Row)
    (hotl : cx.otl = true) (hlev : L ≤ D.nIter)
    (hu : D.definingEquality D.rows (L - 1) = some u ∧ lo = none ∨
      D.definingEquality D.rows (L - 1) = none ∧
      ∃ l, D.definingInequalities cx.nm.nPar D.rows (L - 1) = some (u, l) ∧ lo = some l)
    (hunsat : modGuard cx D eqs (Function.update strides (L - 1) st) L u lo (L - 1) = some .unsat)
    (stmts : List Stmt)
    (h : insertLoop cx icmp L eqs strides (.mk D st otl block inner) = some stmts)
    (env env' : Env) (tr : List Event) (hex : Exec stmts env tr env') : tr = [] ∧ env' = env := by
  have hstep : loopStep cx icmp D L otl eqs (Function.update strides (L - 1) st) =
      some ⟨false, fun body => body, none, true⟩ := by
    unfold loopStep
    rw [if_pos ⟨hL, hlev⟩]
    rcases hu with ⟨h1, rfl⟩ | ⟨h1, l, h2, rfl⟩
    · rw [h1]
      simp only
      unfold insertEquation
      simp [hotl, hunsat]
    · rw [h1]
      simp only
      rw [h2]
      simp only
      unfold insertEquation
      simp [hotl, hunsat]
  unfold insertLoop at h
  simp only [if_pos hL, hstep] at h
  unfold insertGuard at h
  cases hx : extraModGuards cx D L eqs (Function.update strides (L - 1) st) L D.divs.length D.rows with
  | none => rw [hx] at h; simp at h
  | some p =>
    obtain ⟨copy, outs⟩ := p
    rw [hx] at h
    simp at h
    subst h
    rw [exec_wraps] at hex
    rcases hex with ⟨_, hex⟩ | ⟨_, h1, h2⟩
    · split at hex
      · exact exec_nil.mp hex
      · rw [exec_guard] at hex
        rcases hex with ⟨_, hex⟩ | ⟨_, h1, h2⟩
        · exact exec_nil.mp hex
        · exact ⟨h1, h2⟩
    · exact ⟨h1, h2⟩

-- `2 i = 3` at level 1
example : modGuard exCx ⟨1, [], [⟨true, [2, 0], -3⟩]⟩ [] (fun _ => none) 1 ⟨true, [2, 0], -3⟩ none 0 =
    some .unsat := by rfl
example : insertLoop exCx gmpCmp 1 [] (fun _ => none)
    (.mk ⟨1, [], [⟨true, [2, 0], -3⟩]⟩ none false [7] []) = some [] := by rfl

/-- C14 is false of the code: `insert_extra_modulo_guards` ignores the outcome "never satisfied". Here
`i + 1 = 2 a` is required inside a loop over even `i`; no guard at all is generated although the
condition is false in every iteration. -/
theorem C14_extra_guard_ignored :
    ∃ (D : Dom) (strides : Nat → Option Stride) (s : Stride) (g : List Stmt → List Stmt),
      strides 0 = some s ∧
      insertGuard exCx D 2 [] strides 2 = some g ∧ (∀ body, g body = body) ∧
      ∀ x p, s.holds 0 1 1 (fun c => if c < 1 then x c else p (c - 1)) → ¬ D.mem x p := by
  refine ⟨⟨1, [⟨[1, 0, 0], 1, 2⟩], [⟨true, [1, -2, 0], 1⟩]⟩,
    fun k => if k = 0 then some ⟨2, 0, 0, none⟩ else none, ⟨2, 0, 0, none⟩, _, rfl, rfl, ?_, ?_⟩
  · intro body; rfl
  · intro x p hs hm
    have := hm _ (List.mem_singleton.mpr rfl)
    simp only [Stride.holds] at hs
    simp [Row.holds, Row.val, dotFrom, Dom.pt, divVals] at this hs
    omega

end Verif.Props.Guards
