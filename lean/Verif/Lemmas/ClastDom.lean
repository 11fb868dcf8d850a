import Verif.Lemmas.Modulo
import Verif.Lemmas.Exec
import Verif.Props.Bounds
import Verif.Props.Guards

/-!
# Columns whose expressions have the right value

A column of a domain is usable when the generated program can compute its value from the iterators
in `ok` and the parameters.
-/

namespace Verif.ClastGen

open Verif.IntOps Verif.Clast Verif.Bound Verif.Props.Arith Verif.Props.Bounds

/-- Which existentials can be computed from the iterators in `ok` and earlier ones. -/
def usableDivs (nIter nDiv : Nat) (ok : Nat → Bool) : List DivDef → List Bool → List Bool
  | [], acc => acc
  | d :: ds, acc => usableDivs nIter nDiv ok ds (acc ++ [(List.range d.num.length).all (fun c =>
      d.num.getD c 0 == 0 || (if c < nIter then ok c
        else if c < nIter + nDiv then acc.getD (c - nIter) false else true))])

/-- Can the value of column `c` be computed from the iterators in `ok`? -/
def Dom.usable (D : Dom) (ok : Nat → Bool) (c : Nat) : Bool :=
  if c < D.nIter then ok c
  else if c < D.nIter + D.divs.length then
    (usableDivs D.nIter D.divs.length ok D.divs []).getD (c - D.nIter) false
  else true

/-- The definitions of the existentials are printed faithfully: `div_expr` reads only numerators of
reduced fractions, so the coefficients have to be coprime to the denominator (or zero). -/
def Dom.divsFaithful (D : Dom) (nm : Names) : Prop :=
  ∀ d ∈ D.divs, 0 < d.den ∧ (∀ c ∈ d.num, redNum c d.den = c) ∧ redNum d.cst d.den = d.cst ∧
    d.num.length ≤ D.total nm

theorem divTerms_sum (vars : Nat → Expr) (den : Int) (env : Env) (y : Point) :
    ∀ (cs : List Int) (i : Nat), (∀ c ∈ cs, redNum c den = c) →
    (∀ k, k < cs.length → cs.getD k 0 ≠ 0 → (vars (i + k)).eval env = y (i + k)) →
    RedType.eval .sum (evalList env (divTerms vars den cs i)) = dotFrom cs i y
  | [], i, _, _ => by simp [divTerms, evalList, RedType.eval, dotFrom]
  | c :: cs, i, hf, h => by
    have ih := divTerms_sum vars den env y cs (i + 1) (fun c hc => hf c (by simp [hc]))
      (fun k hk h2 => by
        have := h (k + 1) (by simpa using hk) (by simpa using h2)
        rwa [show i + (k + 1) = i + 1 + k by omega] at this)
    unfold divTerms
    by_cases hc : c = 0
    · rw [if_pos hc, ih, hc]; simp [dotFrom]
    · rw [if_neg hc]
      have h0 := h 0 (by simp) (by simpa using hc)
      simp only [Nat.add_zero] at h0
      have hr := hf c (by simp)
      simp only [evalList, Expr.eval, RedType.eval, List.foldr_cons] at ih ⊢
      rw [h0, hr, ih]
      rfl

theorem sum_eval_append (env : Env) (a b : List Expr) :
    RedType.eval .sum (evalList env (a ++ b)) =
      RedType.eval .sum (evalList env a) + RedType.eval .sum (evalList env b) := by
  simp only [evalList_eq_map, List.map_append, RedType.eval]
  induction a with
  | nil => simp
  | cons x a ih => simp only [List.map_cons, List.cons_append, List.foldr_cons, ih]; ring

theorem divExpr_eval (vars : Nat → Expr) (d : DivDef) (env : Env) (y : Point) (hden : 0 < d.den)
    (hf : ∀ c ∈ d.num, redNum c d.den = c) (hc : redNum d.cst d.den = d.cst)
    (h : ∀ k, k < d.num.length → d.num.getD k 0 ≠ 0 → (vars k).eval env = y k) :
    (divExpr vars d).eval env = (dotFrom d.num 0 y + d.cst) / d.den := by
  unfold divExpr
  simp only [Expr.eval, BinType.eval]
  rw [floord_eq _ _ hden, sum_eval_append,
    divTerms_sum vars d.den env y d.num 0 hf (fun k hk h2 => by simpa using h k hk h2)]
  congr 2
  split
  · rename_i h0; rw [h0]; simp [evalList, RedType.eval]
  · rw [hc]; simp [evalList, RedType.eval, Expr.eval]

/-- Names and values. -/
structure EnvOK (nm : Names) (ok : Nat → Bool) (env : Env) (x p : Nat → Int) : Prop where
  par : ∀ k, k < nm.nPar → env (nm.param k) = p k
  it : ∀ c, ok c = true → env (nm.at_ c) = x c

theorem divs_eval (nm : Names) (nIter nDiv : Nat) (ok : Nat → Bool) (env : Env) (x p : Nat → Int)
    (he : EnvOK nm ok env x p) :
    ∀ (ds : List DivDef) (aU : List Bool) (aE : List Expr) (aV : List Int),
    aU.length = aE.length → aE.length = aV.length →
    (∀ j, aU.getD j false = true → (aE.getD j (.cst 0)).eval env = aV.getD j 0) →
    (∀ d ∈ ds, 0 < d.den ∧ (∀ c ∈ d.num, redNum c d.den = c) ∧ redNum d.cst d.den = d.cst ∧
      d.num.length ≤ nIter + nDiv + nm.nPar) →
    ∀ j, (usableDivs nIter nDiv ok ds aU).getD j false = true →
      ((divExprs nm nIter nDiv ds aE).getD j (.cst 0)).eval env = (divVals nIter nDiv x p ds aV).getD j 0
  | [], _, _, _, _, _, h, _ => h
  | d :: ds, aU, aE, aV, h1, h2, h, hd => by
    unfold usableDivs divExprs divVals
    refine divs_eval nm nIter nDiv ok env x p he ds _ _ _ (by simp [h1]) (by simp [h2]) ?_
      (fun d' hd' => hd d' (by simp [hd']))
    intro j hj
    obtain ⟨hden, hf, hc, hlen⟩ := hd d (by simp)
    by_cases hjl : j < aU.length
    · rw [List.getD_append _ _ _ _ hjl] at hj
      rw [List.getD_append _ _ _ _ (by omega), List.getD_append _ _ _ _ (by omega)]
      exact h j hj
    · rw [List.getD_append_right _ _ _ _ (by omega)] at hj ⊢
      rw [List.getD_append_right _ _ _ _ (by omega)]
      by_cases hj0 : j = aU.length
      · subst hj0
        rw [show aU.length - aE.length = 0 by omega, show aU.length - aV.length = 0 by omega]
        simp only [Nat.sub_self, List.getD_cons_zero, List.all_eq_true, List.mem_range] at hj ⊢
        refine divExpr_eval _ d env _ hden hf hc ?_
        intro k hk hnz
        have := hj k hk
        simp only [Bool.or_eq_true, beq_iff_eq, hnz, false_or] at this
        unfold colExpr
        by_cases hk1 : k < nIter
        · simp only [hk1, if_true] at this ⊢
          exact he.it k this
        · simp only [hk1, if_false] at this ⊢
          by_cases hk2 : k < nIter + nDiv
          · simp only [hk2, if_true] at this ⊢
            exact h _ this
          · simp only [hk2, if_false]
            exact he.par _ (by omega)
      · exfalso
        obtain ⟨n, hn⟩ : ∃ n, j - aU.length = n + 1 := ⟨j - aU.length - 1, by omega⟩
        rw [hn] at hj
        simp at hj

theorem divs_agree (nIter nDiv : Nat) (ok : Nat → Bool) (x x' p : Nat → Int)
    (he : ∀ c, ok c = true → x c = x' c) :
    ∀ (ds : List DivDef) (aU : List Bool) (aV aV' : List Int),
    aU.length = aV.length → aV.length = aV'.length →
    (∀ j, aU.getD j false = true → aV.getD j 0 = aV'.getD j 0) →
    ∀ j, (usableDivs nIter nDiv ok ds aU).getD j false = true →
      (divVals nIter nDiv x p ds aV).getD j 0 = (divVals nIter nDiv x' p ds aV').getD j 0
  | [], _, _, _, _, _, h => h
  | d :: ds, aU, aV, aV', h1, h2, h => by
    unfold usableDivs divVals
    refine divs_agree nIter nDiv ok x x' p he ds _ _ _ (by simp [h1]) (by simp [h2]) ?_
    intro j hj
    by_cases hjl : j < aU.length
    · rw [List.getD_append _ _ _ _ hjl] at hj
      rw [List.getD_append _ _ _ _ (by omega), List.getD_append _ _ _ _ (by omega)]
      exact h j hj
    · rw [List.getD_append_right _ _ _ _ (by omega)] at hj ⊢
      rw [List.getD_append_right _ _ _ _ (by omega)]
      by_cases hj0 : j = aU.length
      · subst hj0
        rw [show aU.length - aV.length = 0 by omega, show aU.length - aV'.length = 0 by omega]
        simp only [Nat.sub_self, List.getD_cons_zero, List.all_eq_true, List.mem_range] at hj ⊢
        congr 2
        rw [dotFrom_eq_sum, dotFrom_eq_sum]
        refine Finset.sum_congr rfl ?_
        intro k hk
        have := hj k (Finset.mem_range.mp hk)
        simp only [Bool.or_eq_true, beq_iff_eq] at this
        rcases this with h0 | this
        · rw [h0]; simp
        · congr 1
          simp only [Nat.zero_add]
          by_cases hk1 : k < nIter
          · simp only [hk1, if_true] at this ⊢
            exact he k this
          · simp only [hk1, if_false] at this ⊢
            by_cases hk2 : k < nIter + nDiv
            · simp only [hk2, if_true] at this ⊢
              exact h _ this
            · simp only [hk2, if_false]
      · exfalso
        obtain ⟨n, hn⟩ : ∃ n, j - aU.length = n + 1 := ⟨j - aU.length - 1, by omega⟩
        rw [hn] at hj
        simp at hj

/-- The expression of a usable column has the value of the column. -/
theorem Dom.vars_eval (D : Dom) (nm : Names) (ok : Nat → Bool) (env : Env) (x p : Nat → Int)
    (he : EnvOK nm ok env x p) (hf : D.divsFaithful nm) (c : Nat) (hc : c < D.total nm)
    (hu : D.usable ok c = true) : (D.vars nm c).eval env = D.pt x p c := by
  unfold Dom.vars colExpr Dom.pt
  unfold Dom.usable at hu
  by_cases h1 : c < D.nIter
  · simp only [h1, if_true] at hu ⊢
    exact he.it c hu
  · simp only [h1, if_false] at hu ⊢
    by_cases h2 : c < D.nIter + D.divs.length
    · simp only [h2, if_true] at hu ⊢
      exact divs_eval nm _ _ ok env x p he D.divs [] [] [] rfl rfl (by simp) hf _ hu
    · simp only [h2, if_false]
      exact he.par _ (by unfold Dom.total at hc; omega)

/-- The value of a usable column depends on the iterators in `ok` only. -/
theorem Dom.pt_agree (D : Dom) (ok : Nat → Bool) (x x' p : Nat → Int)
    (he : ∀ c, ok c = true → x c = x' c) (c : Nat) (hu : D.usable ok c = true) :
    D.pt x p c = D.pt x' p c := by
  unfold Dom.pt
  unfold Dom.usable at hu
  by_cases h1 : c < D.nIter
  · simp only [h1, if_true] at hu ⊢
    exact he c hu
  · simp only [h1, if_false] at hu ⊢
    by_cases h2 : c < D.nIter + D.divs.length
    · simp only [h2, if_true] at hu ⊢
      exact divs_agree _ _ ok x x' p he D.divs [] [] [] rfl rfl (by simp) _ hu
    · simp only [h2, if_false]

theorem Row.val_congr (r : Row) (y y' : Point) (h : ∀ c, r.at c ≠ 0 → y c = y' c) :
    r.val y = r.val y' := by
  unfold Row.val
  congr 1
  rw [dotFrom_eq_sum, dotFrom_eq_sum]
  refine Finset.sum_congr rfl ?_
  intro k _
  simp only [Nat.zero_add]
  by_cases hk : r.coef.getD k 0 = 0
  · rw [hk]; simp
  · rw [h k hk]

theorem Row.holds_congr (r : Row) (y y' : Point) (h : ∀ c, r.at c ≠ 0 → y c = y' c) :
    r.holds y ↔ r.holds y' := by
  unfold Row.holds
  rw [Row.val_congr r y y' h]

theorem Row.at_lt (r : Row) (c : Nat) (h : r.at c ≠ 0) : c < r.coef.length := by
  by_contra hc
  apply h
  simp only [Row.at]; exact List.getD_eq_default _ _ (by omega)

end Verif.ClastGen
