import Verif.Model.IslSet
import Mathlib.Tactic.Linarith
import Mathlib.Tactic.Ring

/-! # Values of the affine expressions of `Verif.IslSet` -/

namespace Verif.IslSet

open Verif.Loop Verif.IntOps

theorem dotFrom_scale (v : Int) (x : Nat → Int) : ∀ (l : List Int) (k : Nat),
    dotFrom k (l.map (v * ·)) x = v * dotFrom k l x
  | [], k => by simp [dotFrom]
  | c :: cs, k => by
    have := dotFrom_scale v x cs (k + 1)
    simp only [List.map_cons, dotFrom, this]
    ring

theorem dotFrom_scale' (v : Int) (x : Nat → Int) : ∀ (l : List Int) (k : Nat),
    dotFrom k (l.map (fun u => u * v)) x = v * dotFrom k l x
  | [], k => by simp [dotFrom]
  | c :: cs, k => by
    have := dotFrom_scale' v x cs (k + 1)
    simp only [List.map_cons, dotFrom, this]
    ring

theorem dotFrom_addAt (v : Int) (x : Nat → Int) : ∀ (l : List Int) (i k : Nat),
    dotFrom k (addAt l i v) x = dotFrom k l x + v * x (k + i)
  | [], 0, k => by simp [addAt, dotFrom]
  | [], i + 1, k => by
    have := dotFrom_addAt v x [] i (k + 1)
    simp only [addAt, dotFrom, this]
    rw [show k + 1 + i = k + (i + 1) by omega]
    ring
  | c :: cs, 0, k => by
    simp only [addAt, dotFrom, Nat.add_zero]
    ring
  | c :: cs, i + 1, k => by
    have := dotFrom_addAt v x cs i (k + 1)
    simp only [addAt, dotFrom, this]
    rw [show k + 1 + i = k + (i + 1) by omega]
    ring

theorem dotFrom_set (x : Nat → Int) : ∀ (l : List Int) (i k : Nat),
    dotFrom k (l.set i 0) x = dotFrom k l x - l.getD i 0 * x (k + i)
  | [], i, k => by simp [dotFrom]
  | c :: cs, 0, k => by simp [dotFrom]
  | c :: cs, i + 1, k => by
    have := dotFrom_set x cs i (k + 1)
    simp only [List.set_cons_succ, dotFrom, this, List.getD_cons_succ]
    rw [show k + 1 + i = k + (i + 1) by omega]
    ring

theorem dotFrom_add (x : Nat → Int) : ∀ (a b : List Int) (k : Nat),
    dotFrom k (addLists a b) x = dotFrom k a x + dotFrom k b x
  | [], b, k => by simp [addLists, dotFrom]
  | a :: as, [], k => by simp [addLists, dotFrom]
  | a :: as, b :: bs, k => by
    have := dotFrom_add x as bs (k + 1)
    simp only [addLists, dotFrom, this]
    ring

theorem dotFrom_congr {x y : Nat → Int} : ∀ (l : List Int) (k : Nat),
    (∀ i, k ≤ i → i < k + l.length → x i = y i) → dotFrom k l x = dotFrom k l y
  | [], k, _ => rfl
  | c :: cs, k, h => by
    have := dotFrom_congr cs (k + 1) (fun i h1 h2 => h i (by omega) (by simp; omega))
    simp only [dotFrom, this, h k (Nat.le_refl _) (by simp)]

theorem divs_scale (v : Int) (p x e : Nat → Int) : ∀ ds : Divs,
    (ds.scale v).val p x e = v * ds.val p x e
  | .nil => by simp [Divs.scale, Divs.val]
  | .cons c d ds => by
    have := divs_scale v p x e ds
    simp only [Divs.scale, Divs.val, this]
    ring

theorem divs_append (p x e : Nat → Int) : ∀ a b : Divs,
    (a.append b).val p x e = a.val p x e + b.val p x e
  | .nil, b => by simp [Divs.append, Divs.val]
  | .cons c d ds, b => by
    have := divs_append p x e ds b
    simp only [Divs.append, Divs.val, this]
    ring

theorem divs_free (p x e : Nat → Int) : ∀ ds : Divs, ds.free = true → ds.val p x e = 0
  | .nil, _ => by simp [Divs.val]
  | .cons c d ds, h => by
    simp only [Divs.free, Bool.and_eq_true, decide_eq_true_eq] at h
    simp [Divs.val, h.1, divs_free p x e ds h.2]

theorem divs_dvd (g : Int) (p x e : Nat → Int) : ∀ ds : Divs, (∀ c ∈ ds.coefs, g ∣ c) →
    g ∣ ds.val p x e
  | .nil, _ => by simp [Divs.val]
  | .cons c d ds, h => by
    simp only [Divs.coefs, List.mem_cons, forall_eq_or_imp] at h
    exact Int.dvd_add (Dvd.dvd.mul_right h.1 _) (divs_dvd g p x e ds h.2)

theorem lin_scale (v : Int) (p x e : Nat → Int) (l : Lin) :
    (l.scale v).val p x e = v * l.val p x e := by
  simp only [Lin.val, Lin.scale, dotFrom_scale, divs_scale]
  ring

theorem lin_add (p x e : Nat → Int) (a b : Lin) :
    (a.add b).val p x e = a.val p x e + b.val p x e := by
  simp only [Lin.val, Lin.add, dotFrom_add, divs_append]
  ring

/-- The terms of a constraint other than that of an iterator. -/
def Con.rest (c : Con) (i : Nat) (p x e : Nat → Int) : Int := c.lin.val p x e - c.coef i * x i

theorem bound_pos {c : Con} {i : Nat} (h : 0 < c.coef i) :
    (c.bound i).den = c.coef i ∧ ∀ p x e, (c.bound i).lin.val p x e = - c.rest i p x e := by
  unfold Con.bound Con.rest
  rw [if_pos h]
  refine ⟨rfl, fun p x e => ?_⟩
  simp only [Lin.val, Lin.scale, dotFrom_scale, divs_scale, dotFrom_set, Con.coef, Nat.zero_add]
  ring

theorem aff_neg (a : Aff) : a.neg.den = a.den ∧ ∀ p x e, a.neg.lin.val p x e = - a.lin.val p x e :=
  ⟨rfl, fun p x e => by simp [Aff.neg, lin_scale]⟩

theorem aff_scale (a : Aff) (v : Int) :
    (a.scale v).den = a.den ∧ ∀ p x e, (a.scale v).lin.val p x e = v * a.lin.val p x e :=
  ⟨rfl, fun p x e => by simp [Aff.scale, lin_scale]⟩

theorem aff_addConst (a : Aff) (v : Int) : (a.addConst v).den = a.den ∧
    ∀ p x e, (a.addConst v).lin.val p x e = a.lin.val p x e + v * a.den :=
  ⟨rfl, fun p x e => by simp [Aff.addConst, Lin.val]; ring⟩

theorem aff_addCoef (a : Aff) (i : Nat) (v : Int) : (a.addCoef i v).den = a.den ∧
    ∀ p x e, (a.addCoef i v).lin.val p x e = a.lin.val p x e + v * a.den * x i :=
  ⟨rfl, fun p x e => by simp [Aff.addCoef, Lin.val, dotFrom_addAt]; ring⟩

theorem aff_scaleDown (a : Aff) (v : Int) : (a.scaleDown v).den = a.den * v ∧
    ∀ p x e, (a.scaleDown v).lin.val p x e = a.lin.val p x e :=
  ⟨rfl, fun _ _ _ => rfl⟩

theorem aff_floor (a : Aff) : a.floor.den = 1 ∧
    ∀ p x e, a.floor.lin.val p x e = (a.lin.val p x e).fdiv a.den :=
  ⟨rfl, fun p x e => by simp [Aff.floor, Lin.val, Divs.val, Div.val, dotFrom]⟩

theorem aff_ceil (a : Aff) : a.ceil.den = 1 ∧
    ∀ p x e, a.ceil.lin.val p x e = - (- a.lin.val p x e).fdiv a.den :=
  ⟨rfl, fun p x e => by
    unfold Aff.ceil
    rw [(aff_neg _).2, (aff_floor _).2, (aff_neg _).2]
    rfl⟩

theorem aff_add (a b : Aff) : (a.add b).den = a.den * b.den ∧
    ∀ p x e, (a.add b).lin.val p x e = b.den * a.lin.val p x e + a.den * b.lin.val p x e :=
  ⟨rfl, fun p x e => by simp [Aff.add, lin_add, lin_scale]⟩

theorem aff_sub (a b : Aff) : (a.sub b).den = a.den * b.den ∧
    ∀ p x e, (a.sub b).lin.val p x e = b.den * a.lin.val p x e - a.den * b.lin.val p x e := by
  unfold Aff.sub
  refine ⟨rfl, fun p x e => ?_⟩
  rw [(aff_add _ _).2, (aff_neg _).2]
  show b.neg.den * _ + _ = _
  rw [(aff_neg b).1]
  ring

theorem holds_ineq (a : Aff) (p x e : Nat → Int) : a.ineq.holds p x e ↔ 0 ≤ a.lin.val p x e := by
  simp [Aff.ineq, Con.holds]

theorem holds_equ (a : Aff) (p x e : Nat → Int) : a.equ.holds p x e ↔ a.lin.val p x e = 0 := by
  simp [Aff.equ, Con.holds]

/-- The smallest value at or above `-f / a` that is `off` modulo `s`. -/
def roundUp (a f s off : Int) : Int := off - s * (f + off * a).fdiv (a * s)

theorem roundUp_dvd (a f s off : Int) : s ∣ roundUp a f s off - off :=
  ⟨-(f + off * a).fdiv (a * s), by unfold roundUp; ring⟩

theorem roundUp_le {a f s off v : Int} (ha : 0 < a) (hs : 0 < s) (h : s ∣ v - off) :
    roundUp a f s off ≤ v ↔ 0 ≤ a * v + f := by
  obtain ⟨t, ht⟩ := h
  have has : 0 < a * s := Int.mul_pos ha hs
  have key : -t ≤ (f + off * a).fdiv (a * s) ↔ 0 ≤ a * v + f := by
    rw [Int.fdiv_eq_ediv_of_nonneg _ (Int.le_of_lt has), Int.le_ediv_iff_mul_le has]
    have : v = off + s * t := by omega
    subst this
    constructor <;> intro h <;> nlinarith
  rw [← key]
  unfold roundUp
  have : v = off + s * t := by omega
  subst this
  constructor
  · intro h
    have : s * (-t) ≤ s * (f + off * a).fdiv (a * s) := by linarith
    exact le_of_mul_le_mul_left this hs
  · intro h
    have := Int.mul_le_mul_of_nonneg_left h (Int.le_of_lt hs)
    linarith

/-- The offset of a stride: constant, or given by the constraint it comes from. -/
def Stride.off (s : Stride) (i : Nat) (p x : Nat → Int) : Int :=
  match s.con with
  | none => s.offset
  | some sc => s.factor * (dotFrom 0 sc.lin.set x - sc.coef i * x i + dotFrom 0 sc.lin.par p + sc.lin.cst)

/-- The value of the new bound. -/
theorem strideBound_val {L : Nat} {s : Stride} {c : Con} (ha : 0 < c.coef (L - 1)) (p x e : Nat → Int) :
    (strideBound L s c).lin.val p x e = x (L - 1) -
      roundUp (c.coef (L - 1)) (c.rest (L - 1) p x e) s.stride (s.off (L - 1) p x) := by
  obtain ⟨b1, b2⟩ := bound_pos ha
  unfold strideBound Stride.off roundUp
  cases hs : s.con with
  | none =>
    simp only
    show Lin.val p x e (Aff.lin _) = _
    rw [(aff_addCoef _ _ _).2, (aff_addConst _ _).2, (aff_addConst _ _).1, (aff_scale _ _).2,
      (aff_scale _ _).1, (aff_floor _).2, (aff_floor _).1, (aff_scaleDown _ _).2, (aff_scaleDown _ _).1,
      (aff_addConst _ _).2, (aff_addConst _ _).1, (aff_neg _).2, (aff_neg _).1, b1, b2]
    rw [Int.neg_neg]
    ring
  | some sc =>
    simp only
    have hd : ∀ p x e, ((sc.aff.dropDivs.zeroCoef (L - 1)).scale s.factor).lin.val p x e =
        s.factor * (dotFrom 0 sc.lin.set x - sc.coef (L - 1) * x (L - 1) + dotFrom 0 sc.lin.par p +
          sc.lin.cst) := by
      intro p x e
      rw [(aff_scale _ _).2]
      simp only [Aff.zeroCoef, Aff.dropDivs, Con.aff, Lin.val, dotFrom_set, Divs.val, Con.coef,
        Nat.zero_add, Int.add_zero]
    have hden : ((sc.aff.dropDivs.zeroCoef (L - 1)).scale s.factor).den = 1 := rfl
    rw [← hd p x e]
    generalize (sc.aff.dropDivs.zeroCoef (L - 1)).scale s.factor = D at hden
    show Lin.val p x e (Aff.lin _) = _
    rw [(aff_addCoef _ _ _).2, (aff_sub _ _).2, (aff_sub _ _).1, (aff_scale _ _).2,
      (aff_scale _ _).1, (aff_floor _).2, (aff_floor _).1, (aff_scaleDown _ _).2, (aff_scaleDown _ _).1,
      (aff_add _ _).2, (aff_add _ _).1, (aff_neg _).2, (aff_neg _).1, b1, b2, hden]
    generalize D.lin.val p x e = d
    simp only [Int.one_mul, Int.mul_one, Int.neg_neg]
    rw [Int.mul_comm (c.coef (L - 1)) d]
    ring

/-- The new bound says that the iterator is at least the smallest value at or above the old bound that
has the right remainder. -/
theorem strideBound_holds {L : Nat} {s : Stride} {c : Con} (ha : 0 < c.coef (L - 1)) (p x e : Nat → Int) :
    (strideBound L s c).holds p x e ↔
      roundUp (c.coef (L - 1)) (c.rest (L - 1) p x e) s.stride (s.off (L - 1) p x) ≤ x (L - 1) := by
  have he : (strideBound L s c).eq = false := by unfold strideBound; split <;> rfl
  unfold Con.holds
  rw [if_neg (by simp [he]), strideBound_val ha]
  omega

theorem addAt_getD (v : Int) : ∀ (l : List Int) (i : Nat), (addAt l i v).getD i 0 = l.getD i 0 + v
  | [], 0 => by simp [addAt]
  | [], i + 1 => by simpa [addAt] using addAt_getD v [] i
  | c :: cs, 0 => by simp [addAt]
  | c :: cs, i + 1 => by simpa [addAt] using addAt_getD v cs i

theorem getD_map_mul (v : Int) (l : List Int) (i : Nat) : (l.map (v * ·)).getD i 0 = v * l.getD i 0 := by
  rw [List.getD_eq_getElem?_getD, List.getD_eq_getElem?_getD, List.getElem?_map]
  cases l[i]? <;> simp

/-- The coefficient of the iterator in the new bound is 1. -/
theorem strideBound_coef (L : Nat) (s : Stride) (c : Con) : (strideBound L s c).coef (L - 1) = 1 := by
  unfold strideBound Con.coef
  cases s.con with
  | none =>
    show (addAt _ _ _).getD _ 0 = 1
    rw [addAt_getD]
    rfl
  | some sc =>
    show (addAt (addLists [] _) _ _).getD _ 0 = 1
    rw [addAt_getD, addLists]
    show (((((sc.lin.set.set (L - 1) 0).map (s.factor * ·)).map (-1 * ·)).map (1 * ·)).getD (L - 1) 0) +
      1 * (1 * 1) = 1
    rw [getD_map_mul, getD_map_mul, getD_map_mul]
    have : (sc.lin.set.set (L - 1) 0).getD (L - 1) 0 = 0 := by
      rw [List.getD_eq_getElem?_getD, List.getElem?_set]
      split
      · split <;> rfl
      · rename_i hne; exact absurd rfl hne
    rw [this]
    ring

end Verif.IslSet
