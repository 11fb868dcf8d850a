import Verif.Lemmas.ClastGuard
import Verif.Props.Expr

/-!
# Lower bounds of loops whose stride is given by a constraint
-/

namespace Verif.ClastGen

open Verif.IntOps Verif.Clast Verif.Bound Verif.Props.Arith Verif.Props.Bounds Verif.Props.Guards
open Verif.Props.Expr

/-- The value of the part of a rounded quotient that is left as a division. -/
def restVal (y : Point) : Option DivDef → Int
  | none => 0
  | some e => (dotFrom e.num 0 y + e.cst) / e.den

/-- What `isl_aff_floor` does: the value is the floor of the quotient, and no column is added. -/
structure FloorLaws (fl : DivDef → (List Int × Int) × Option DivDef) : Prop where
  val : ∀ d y, 0 < d.den → (dotFrom d.num 0 y + d.cst) / d.den =
    dotFrom (fl d).1.1 0 y + (fl d).1.2 + restVal y (fl d).2
  keep : ∀ d i, d.num.getD i 0 = 0 → (fl d).1.1.getD i 0 = 0
  len : ∀ d, (fl d).1.1.length ≤ d.num.length

/-- The division that is left has an expression with its value (see C45). -/
def Faithful (e : DivDef) : Prop :=
  0 < e.den ∧ (∀ c ∈ e.num, redNum c e.den = c) ∧ redNum e.cst e.den = e.cst

theorem dot_range (f : Nat → Int) (y : Point) (n : Nat) :
    dotFrom ((List.range n).map f) 0 y = ∑ i ∈ Finset.range n, f i * y i := by
  rw [dotFrom_eq_sum, List.length_map, List.length_range]
  refine Finset.sum_congr rfl fun k hk => ?_
  rw [List.getD_eq_getElem _ _ (by simpa using hk), List.getElem_map, List.getElem_range, Nat.zero_add]

theorem dot_pad (l : List Int) (y : Point) (n : Nat) (h : l.length ≤ n) :
    dotFrom l 0 y = ∑ i ∈ Finset.range n, l.getD i 0 * y i := by
  rw [dotFrom_eq_sum]
  simp only [Nat.zero_add]
  refine Finset.sum_subset (by simpa using h) fun i _ hi => ?_
  rw [List.getD_eq_default _ _ (by simpa using hi), Int.zero_mul]

theorem sum_insert (nb n : Nat) (hn : nb ≤ n) (a z : Int) (f y : Nat → Int) :
    ∑ i ∈ Finset.range (n + 1), insertCol nb a f i * insertCol nb z y i =
      (∑ i ∈ Finset.range n, f i * y i) + a * z := by
  have h1 : ∀ i < nb, insertCol nb a f i * insertCol nb z y i = f i * y i := fun i hi => by
    simp [insertCol, hi]
  have h2 : ∀ i, nb ≤ i → insertCol nb a f (i + 1) * insertCol nb z y (i + 1) = f i * y i := fun i hi => by
    simp [insertCol, show ¬ i + 1 < nb by omega, show ¬ i + 1 = nb by omega]
  have h3 : insertCol nb a f nb * insertCol nb z y nb = a * z := by simp [insertCol]
  induction n with
  | zero =>
    obtain rfl : nb = 0 := by omega
    simp [h3]
  | succ n ih =>
    rw [Finset.sum_range_succ]
    by_cases hb : nb ≤ n
    · rw [ih hb, h2 n hb, Finset.sum_range_succ (fun i => f i * y i)]
      ring
    · obtain rfl : nb = n + 1 := by omega
      rw [h3]
      congr 1
      exact Finset.sum_congr rfl fun i hi => h1 i (by simpa using hi)

/-- The offset of the stride at a point. -/
def offVal (s : Stride) (c : Row) (col nb n : Nat) (y : Point) : Int :=
  (∑ i ∈ Finset.range n, strideOff s c col nb n i * y i) + s.factor * c.cst

/-- The new bound holds at a point if the iterator is at least the rounded bound. -/
theorem strideBound_eval (cx : Ctx) (hfl : FloorLaws cx.floorAff) (s : Stride) (c : Row) (col : Nat)
    (vars : Nat → Expr) (r : Row) (hp : cx.nm.nPar ≤ r.coef.length) (hcol : col < r.coef.length - cx.nm.nPar)
    (ha : 0 < r.at col) (hs : 0 < s.stride) (env : Env)
    (hfa : ∀ e, (cx.floorAff (strideDiv cx.nm.nPar s c col r)).2 = some e → Faithful e) :
    ∃ b, strideBound cx s c col vars r = some b ∧
      b.eval env = offVal s c col (r.coef.length - cx.nm.nPar) r.coef.length (fun i => (vars i).eval env) -
        s.stride * ((r.val (Function.update (fun i => (vars i).eval env) col 0) +
          r.at col * offVal s c col (r.coef.length - cx.nm.nPar) r.coef.length (fun i => (vars i).eval env)) /
            (r.at col * s.stride)) := by
  generalize hn : r.coef.length = n at *
  generalize hnb : n - cx.nm.nPar = nb at *
  generalize hy : (fun i => (vars i).eval env) = y
  have hyi : ∀ i, (vars i).eval env = y i := fun i => by rw [← hy]
  have hnum : (strideDiv cx.nm.nPar s c col r).num.length = n := by simp [strideDiv, hn]
  have hnumi : ∀ i < n, (strideDiv cx.nm.nPar s c col r).num.getD i 0 =
      if i = col then 0 else r.at i + r.at col * strideOff s c col nb n i := by
    intro i hi
    rw [List.getD_eq_getElem _ _ (by rw [hnum]; exact hi)]
    simp [strideDiv, hn, hnb]
  have hval := hfl.val (strideDiv cx.nm.nPar s c col r) y (Int.mul_pos ha hs)
  have hkeep := hfl.keep (strideDiv cx.nm.nPar s c col r) col
    (by rw [hnumi col (by omega), if_pos rfl])
  have hlen := hfl.len (strideDiv cx.nm.nPar s c col r)
  rw [hnum] at hlen
  generalize hq : cx.floorAff (strideDiv cx.nm.nPar s c col r) = q at *
  have hoffc : strideOff s c col nb n col = 0 := by
    simp [strideOff, show ¬ nb ≤ col by omega]
  -- the quotient
  have hquot : dotFrom (strideDiv cx.nm.nPar s c col r).num 0 y + (strideDiv cx.nm.nPar s c col r).cst =
      r.val (Function.update y col 0) + r.at col * offVal s c col nb n y := by
    have h1 : dotFrom (strideDiv cx.nm.nPar s c col r).num 0 y =
        ∑ i ∈ Finset.range n, (r.at i * Function.update y col 0 i + r.at col * (strideOff s c col nb n i * y i)) := by
      unfold strideDiv
      rw [hn, hnb, dot_range]
      refine Finset.sum_congr rfl fun i _ => ?_
      by_cases hi : i = col
      · subst hi
        rw [if_pos rfl, Function.update_self, hoffc]
        ring
      · rw [if_neg hi, Function.update_of_ne hi]
        ring
    rw [h1, Finset.sum_add_distrib, ← Finset.mul_sum]
    unfold Row.val offVal
    rw [dot_pad r.coef _ n (by omega)]
    simp only [strideDiv, Row.at]
    ring
  rw [hquot] at hval
  set coef : Nat → Int := fun i => (if i = col then 1 else 0) + s.stride * q.1.1.getD i 0 -
    strideOff s c col nb n i with hcoef
  have hcc : coef col = 1 := by simp only [hcoef, hkeep, hoffc]; simp
  have hsum : ∀ v, ∑ i ∈ Finset.range n, coef i * Function.update y col v i =
      v + s.stride * dotFrom q.1.1 0 y - ∑ i ∈ Finset.range n, strideOff s c col nb n i * y i := by
    intro v
    rw [dot_pad q.1.1 y n hlen, Finset.mul_sum]
    have : ∀ i ∈ Finset.range n, coef i * Function.update y col v i =
        (if i = col then v else 0) + (s.stride * (q.1.1.getD i 0 * y i) - strideOff s c col nb n i * y i) := by
      intro i _
      by_cases hi : i = col
      · subst hi
        rw [hcc, Function.update_self, if_pos rfl, hkeep, hoffc]
        ring
      · rw [Function.update_of_ne hi, if_neg hi]
        simp only [hcoef, if_neg hi]
        ring
    rw [Finset.sum_congr rfl this, Finset.sum_add_distrib, Finset.sum_sub_distrib, Finset.sum_ite_eq' ,
      if_pos (by simp; omega)]
    ring
  -- the new row
  have key : ∃ z : Point, Agree (strideVars nb vars q.2) env z col (strideRow cx.nm.nPar s c col r q) ∧
      (strideRow cx.nm.nPar s c col r q).at col = 1 ∧
      ∀ v, (strideRow cx.nm.nPar s c col r q).val (Function.update z col v) =
        v + s.stride * (dotFrom q.1.1 0 y + q.1.2 + restVal y q.2) - offVal s c col nb n y := by
    cases hd : q.2 with
    | none =>
      refine ⟨y, fun i _ _ => hyi i, ?_, fun v => ?_⟩
      · unfold strideRow Row.at
        simp only [hd, hn, hnb]
        rw [List.getD_eq_getElem _ _ (by simp; omega), List.getElem_map, List.getElem_range]
        exact hcc
      · unfold strideRow Row.val
        simp only [hd, hn, hnb]
        have hv := hsum v
        simp only [hcoef] at hv
        rw [dot_range, hv]
        unfold offVal restVal
        ring
    | some d =>
      obtain ⟨f1, f2, f3⟩ := hfa d hd
      have hz : (divExpr vars d).eval env = restVal y (some d) :=
        divExpr_eval vars d env y f1 f2 f3 (fun k _ _ => hyi k)
      refine ⟨insertCol nb (restVal y (some d)) y, fun i _ _ => ?_, ?_, fun v => ?_⟩
      · simp only [strideVars, insertCol]
        split
        · exact hyi i
        · split
          · exact hz
          · exact hyi _
      · unfold strideRow Row.at
        simp only [hd, hn, hnb]
        rw [List.getD_eq_getElem _ _ (by simp; omega), List.getElem_map, List.getElem_range, insertCol,
          if_pos (by omega)]
        exact hcc
      · have hupd : Function.update (insertCol nb (restVal y (some d)) y) col v =
            insertCol nb (restVal y (some d)) (Function.update y col v) := by
          funext i
          by_cases hi : i = col
          · subst hi
            rw [Function.update_self]
            simp [insertCol, show i < nb by omega]
          · rw [Function.update_of_ne hi]
            unfold insertCol
            split
            · rw [Function.update_of_ne hi]
            · split
              · rfl
              · rw [Function.update_of_ne (by omega)]
        rw [hupd]
        unfold strideRow Row.val
        simp only [hd, hn, hnb]
        have hv := hsum v
        simp only [hcoef] at hv
        rw [dot_range, sum_insert nb n (by omega), hv]
        unfold offVal
        ring
  obtain ⟨z, hag, hone, hrow⟩ := key
  obtain ⟨b, hb⟩ := bound_exists (strideVars nb vars q.2)
    (show (strideRow cx.nm.nPar s c col r q).at col ≠ 0 by rw [hone]; decide)
  refine ⟨b, by unfold strideBound; dsimp only; rw [hq, hn, hnb]; exact hb, ?_⟩
  have hC := C05_lower _ col _ b env z hb hag (by unfold strideRow; rfl) (by rw [hone]; decide)
  have hiff : ∀ v, b.eval env ≤ v ↔ offVal s c col nb n y - s.stride *
      ((r.val (Function.update y col 0) + r.at col * offVal s c col nb n y) / (r.at col * s.stride)) ≤ v := by
    intro v
    rw [← hC v]
    unfold Row.holds
    rw [if_neg (by simp [strideRow]), hrow]
    have : (strideDiv cx.nm.nPar s c col r).den = r.at col * s.stride := rfl
    rw [this] at hval
    rw [hval]
    constructor <;> intro h <;> omega
  exact le_antisymm ((hiff _).2 (le_refl _)) ((hiff _).1 (le_refl _))

end Verif.ClastGen
