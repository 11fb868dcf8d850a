import Verif.Lemmas.ClastDom

/-!
# C45: expressions for integer divisions
-/

namespace Verif.Props.DivExpr
open Verif.IntOps Verif.Clast Verif.Bound Verif.ClastGen Verif.Props.Arith

/-- The fractions that make up the definition of an integer division are in lowest terms. -/
def Lowest (d : DivDef) : Prop :=
  (∀ c ∈ d.num, c ≠ 0 → Int.gcd c d.den = 1) ∧ (d.cst ≠ 0 → Int.gcd d.cst d.den = 1)

theorem redNum_zero (den : Int) : redNum 0 den = 0 := by simp [redNum]

theorem redNum_eq {c den : Int} : redNum c den = c ↔ (c ≠ 0 → Int.gcd c den = 1) := by
  by_cases h : c = 0
  · subst h
    simp [redNum_zero]
  · have hg : (0 : Int) < Int.gcd c den := by
      have : Int.gcd c den ≠ 0 := fun h0 => h (Int.gcd_eq_zero_iff.1 h0).1
      omega
    have hd : (Int.gcd c den : Int) ∣ c := Int.gcd_dvd_left ..
    unfold redNum
    constructor
    · intro he _
      obtain ⟨k, hk⟩ := hd
      generalize hgg : (Int.gcd c den : Int) = g at *
      have h1 : c / g = k := by rw [hk]; exact Int.mul_ediv_cancel_left _ (by omega)
      rw [h1] at he
      subst he
      have : g = 1 := by
        have h2 : k * 1 = k * g := by rw [Int.mul_one, Int.mul_comm k g]; exact hk
        exact (mul_left_cancel₀ h h2).symm
      omega
    · intro h1
      rw [h1 h]
      simp

theorem divTerms_red (vars : Nat → Expr) (den : Int) (env : Env) : ∀ (cs : List Int) (i : Nat),
    RedType.eval .sum (evalList env (divTerms vars den cs i)) =
      dotFrom (cs.map (fun c => redNum c den)) i (fun k => (vars k).eval env)
  | [], i => by simp [divTerms, evalList, RedType.eval, dotFrom]
  | c :: cs, i => by
    have ih := divTerms_red vars den env cs (i + 1)
    unfold divTerms
    by_cases hc : c = 0
    · rw [if_pos hc, ih, hc]; simp [dotFrom, redNum_zero]
    · rw [if_neg hc]
      simp only [evalList, Expr.eval, RedType.eval, List.foldr_cons] at ih ⊢
      rw [ih]
      rfl

/-- What the expression evaluates to. -/
theorem divExpr_red (vars : Nat → Expr) (d : DivDef) (env : Env) (hden : 0 < d.den) :
    (divExpr vars d).eval env =
      (dotFrom (d.num.map (fun c => redNum c d.den)) 0 (fun k => (vars k).eval env) + redNum d.cst d.den) / d.den := by
  unfold divExpr
  simp only [Expr.eval, BinType.eval]
  rw [floord_eq _ _ hden, sum_eval_append, divTerms_red]
  congr 2
  split
  · rename_i h0; rw [h0, redNum_zero]; simp [evalList, RedType.eval]
  · simp [evalList, RedType.eval, Expr.eval]

/-- All columns but one are 0. -/
theorem dot_unit (v : Int) (j : Nat) : ∀ (cs : List Int) (i : Nat), i ≤ j →
    dotFrom cs i (fun k => if k = j then v else 0) = cs.getD (j - i) 0 * v
  | [], i, _ => by simp [dotFrom]
  | c :: cs, i, h => by
    rw [dotFrom]
    by_cases hi : i = j
    · subst hi
      have : ∀ (cs : List Int) (m : Nat), i < m → dotFrom cs m (fun k => if k = i then v else 0) = 0 := by
        intro cs
        induction cs with
        | nil => intro m _; rfl
        | cons c cs ih => intro m hm; rw [dotFrom, ih (m + 1) (by omega), if_neg (by omega)]; simp
      rw [this cs (i + 1) (by omega)]
      simp
    · rw [dot_unit v j cs (i + 1) (by omega), if_neg hi]
      obtain ⟨m, hm⟩ : ∃ m, j - i = m + 1 := ⟨j - i - 1, by omega⟩
      rw [hm, show j - (i + 1) = m by omega]
      simp

/-- Two constants that agree under the division for all multiples of a coefficient coprime to the
denominator are equal. -/
theorem cst_eq {a D c c' : Int} (hD : 0 < D) (ha : Int.gcd a D = 1)
    (h : ∀ k : Int, (a * k + c) / D = (a * k + c') / D) : c = c' := by
  have key : ∀ c c' : Int, (∀ k : Int, (a * k + c) / D = (a * k + c') / D) → ¬ c < c' := by
    intro c c' h hlt
    have hb := Int.gcd_eq_gcd_ab a D
    rw [ha] at hb
    have h1 := h (-c' * Int.gcdA a D)
    have e : a * (-c' * Int.gcdA a D) + c' = D * (c' * Int.gcdB a D) := by
      have : (1 : Int) = a * Int.gcdA a D + D * Int.gcdB a D := by exact_mod_cast hb
      calc a * (-c' * Int.gcdA a D) + c' = -c' * (a * Int.gcdA a D) + c' * 1 := by ring
        _ = -c' * (a * Int.gcdA a D) + c' * (a * Int.gcdA a D + D * Int.gcdB a D) := by rw [← this]
        _ = D * (c' * Int.gcdB a D) := by ring
    rw [e, Int.mul_ediv_cancel_left _ (by omega)] at h1
    have h2 : a * (-c' * Int.gcdA a D) + c < D * (c' * Int.gcdB a D) := by omega
    have h3 : (a * (-c' * Int.gcdA a D) + c) / D < c' * Int.gcdB a D :=
      Int.ediv_lt_of_lt_mul hD (by rw [Int.mul_comm (c' * _) D]; exact h2)
    omega
  rcases lt_trichotomy c c' with h1 | h1 | h1
  · exact absurd h1 (key c c' h)
  · exact h1
  · exact absurd h1 (key c' c fun k => (h k).symm)

/-- C45.  The expression generated for an integer division that involves a variable has the value of the
division, for all values of the variables, if and only if all its coefficients and its constant are coprime to
the denominator. -/
theorem C45_exact (d : DivDef) (hden : 0 < d.den) (hnz : ∃ c ∈ d.num, c ≠ 0) (nm : Nat → String)
    (hinj : Function.Injective nm) :
    (∀ env : Env, (divExpr (fun i => .name (nm i)) d).eval env =
      (dotFrom d.num 0 (fun i => env (nm i)) + d.cst) / d.den) ↔ Lowest d := by
  constructor
  · intro h
    have h' : ∀ y : Nat → Int, (dotFrom (d.num.map (fun c => redNum c d.den)) 0 y + redNum d.cst d.den) / d.den =
        (dotFrom d.num 0 y + d.cst) / d.den := by
      intro y
      have := h (Function.extend nm y (fun _ => 0))
      rw [divExpr_red _ _ _ hden] at this
      simpa only [Expr.eval, hinj.extend_apply] using this
    have hz := h' (fun k => if k = 0 then 0 else 0)
    rw [dot_unit 0 0 _ 0 (le_refl _), dot_unit 0 0 _ 0 (le_refl _), Int.mul_zero, Int.mul_zero, Int.zero_add,
      Int.zero_add] at hz
    have hnum : ∀ c ∈ d.num, redNum c d.den = c := by
      intro c hc
      obtain ⟨j, hj, rfl⟩ := List.getElem_of_mem hc
      have := h' (fun k => if k = j then d.den else 0)
      rw [dot_unit _ j _ 0 (Nat.zero_le _), dot_unit _ j _ 0 (Nat.zero_le _), Nat.sub_zero,
        List.getD_eq_getElem _ _ (by simpa using hj), List.getD_eq_getElem _ _ hj, List.getElem_map,
        Int.add_comm, Int.add_mul_ediv_right _ _ (by omega), Int.add_comm (_ * _),
        Int.add_mul_ediv_right _ _ (by omega), hz] at this
      omega
    refine ⟨fun c hc => redNum_eq.1 (hnum c hc), redNum_eq.1 ?_⟩
    obtain ⟨c, hc, h0⟩ := hnz
    have hg := redNum_eq.1 (hnum c hc) h0
    obtain ⟨j, hj, rfl⟩ := List.getElem_of_mem hc
    refine cst_eq hden hg fun k => ?_
    have := h' (fun i => if i = j then k else 0)
    rw [dot_unit _ j _ 0 (Nat.zero_le _), dot_unit _ j _ 0 (Nat.zero_le _), Nat.sub_zero,
      List.getD_eq_getElem _ _ (by simpa using hj), List.getD_eq_getElem _ _ hj, List.getElem_map,
      hnum _ hc] at this
    exact this
  · rintro ⟨h1, h2⟩ env
    exact divExpr_eval _ d env _ hden (fun c hc => redNum_eq.2 (h1 c hc)) (redNum_eq.2 h2) (fun k _ _ => rfl)

/-- `floor((i + 2 j + 1) / 3)`. -/
def exLow : DivDef := ⟨[1, 2], 1, 3⟩

example : 0 < exLow.den ∧ (∃ c ∈ exLow.num, c ≠ 0) ∧ Lowest exLow :=
  ⟨by decide, ⟨1, by decide, by decide⟩, by unfold Lowest; decide⟩

/-- `floor((2 i + j) / 4)` is printed as `floord(i+j,4)`. -/
theorem C45_wrong : ∃ env : Env, divExpr (fun i => .name (if i = 0 then "i" else "j")) ⟨[2, 1], 0, 4⟩ =
      .bin .fdiv (.red .sum [.term 1 (.name "i"), .term 1 (.name "j")]) 4 ∧
    (divExpr (fun i => .name (if i = 0 then "i" else "j")) ⟨[2, 1], 0, 4⟩).eval env ≠
      (2 * env "i" + env "j") / 4 :=
  ⟨fun _ => 3, by decide, by decide⟩

/-- C45, nested definitions.  The expression for every column of a domain, existentials defined in terms of
other existentials included, has the value of the column, when all definitions are in lowest terms.  (What is
missing is false: `C45_exact`.) -/
theorem C45_columns_partial (D : Dom) (nm : Names) (env : Env) (x p : Nat → Int)
    (hi : ∀ c, c < D.nIter → env (nm.at_ c) = x c) (hp : ∀ k, k < nm.nPar → env (nm.param k) = p k)
    (hlow : ∀ d ∈ D.divs, 0 < d.den ∧ Lowest d ∧ d.num.length ≤ D.total nm)
    (hord : ∀ (k : Nat) (d : DivDef), D.divs[k]? = some d → ∀ j, k ≤ j → j < D.divs.length → d.num.getD (D.nIter + j) 0 = 0)
    (c : Nat) (hc : c < D.total nm) : (D.vars nm c).eval env = D.pt x p c := by
  have hall : ∀ (ds : List DivDef) (acc : List Bool) (pre : List DivDef), D.divs = pre ++ ds → acc.length = pre.length →
      (∀ b ∈ acc, b = true) → ∀ b ∈ usableDivs D.nIter D.divs.length (fun c => decide (c < D.nIter)) ds acc, b = true := by
    intro ds
    induction ds with
    | nil => intro acc pre _ _ h; exact h
    | cons d ds ih =>
      intro acc pre hpre hlen h
      rw [usableDivs]
      refine ih _ (pre ++ [d]) (by rw [hpre]; simp) (by simp [hlen]) ?_
      intro b hb
      rcases List.mem_append.1 hb with hb | hb
      · exact h b hb
      · rw [List.mem_singleton] at hb
        rw [hb, List.all_eq_true]
        intro k _
        by_cases h0 : d.num.getD k 0 = 0
        · rw [h0]; rfl
        · rw [Bool.or_eq_true]
          right
          split
          · simpa using ‹k < D.nIter›
          · split
            · rename_i h1 h2
              have hk : k - D.nIter < acc.length := by
                by_contra hn
                refine h0 ?_
                have := hord pre.length d (by rw [hpre]; simp) (k - D.nIter) (by omega) (by omega)
                rwa [show D.nIter + (k - D.nIter) = k by omega] at this
              rw [List.getD_eq_getElem _ _ hk]
              exact h _ (List.getElem_mem _)
            · rfl
  have hlenU : ∀ (ds : List DivDef) (acc : List Bool),
      (usableDivs D.nIter D.divs.length (fun c => decide (c < D.nIter)) ds acc).length = acc.length + ds.length := by
    intro ds
    induction ds with
    | nil => intro acc; rfl
    | cons d ds ih => intro acc; rw [usableDivs, ih]; simp; omega
  refine D.vars_eval nm (fun c => decide (c < D.nIter)) env x p ⟨hp, fun c hc => hi c (by simpa using hc)⟩ ?_ c hc ?_
  · intro d hd
    obtain ⟨h1, h2, h3⟩ := hlow d hd
    exact ⟨h1, fun c hc => redNum_eq.2 (h2.1 c hc), redNum_eq.2 h2.2, h3⟩
  · unfold Dom.usable
    split
    · simpa using ‹c < D.nIter›
    · split
      · rename_i h1 h2
        have hk : c - D.nIter < (usableDivs D.nIter D.divs.length (fun c => decide (c < D.nIter)) D.divs []).length := by
          rw [hlenU]; simp; omega
        rw [List.getD_eq_getElem _ _ hk]
        exact hall D.divs [] [] rfl rfl (by simp) _ (List.getElem_mem _)
      · rfl

/-- `floor((i + N) / 3)` and `floor((e + 2 i + 1) / 5)` of the first one. -/
def exDivs : Dom := ⟨1, [⟨[1, 0, 0, 1], 0, 3⟩, ⟨[2, 1, 0, 0], 1, 5⟩], []⟩

/-- One parameter. -/
def exNames : Names := ⟨0, 1, fun _ => "i", fun _ => "N"⟩

example : (∀ d ∈ exDivs.divs, 0 < d.den ∧ Lowest d ∧ d.num.length ≤ exDivs.total exNames) ∧
    (∀ (k : Nat) (d : DivDef), exDivs.divs[k]? = some d → ∀ j, k ≤ j → j < exDivs.divs.length →
      d.num.getD (exDivs.nIter + j) 0 = 0) ∧
    (exDivs.vars exNames 2).eval (fun _ => 4) = (2 * 4 + (4 + 4) / 3 + 1) / 5 := by
  refine ⟨by unfold Lowest; decide, ?_, by decide⟩
  intro k d hd j h1 h2
  have h2' : j < 2 := h2
  match k, hd with
  | 0, hd =>
    cases hd
    have : j = 0 ∨ j = 1 := by omega
    rcases this with rfl | rfl <;> rfl
  | 1, hd =>
    cases hd
    have : j = 1 := by omega
    subst this
    rfl
  | k + 2, hd => simp [exDivs] at hd

end Verif.Props.DivExpr
