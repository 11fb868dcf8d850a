import Verif.Lemmas.ClastFor
import Verif.Props.ClastExec

/-!
# C66: the first value of a strided loop

The stride of a loop over column `col` may depend on outer iterators and parameters: it is then given by a
constraint `e + k i = 0 mod stride`.  Lower bounds are replaced by their first value in that class.
-/

namespace Verif.Props.StrideBound
open Verif.IntOps Verif.Clast Verif.Bound Verif.ClastGen Verif.Props.Arith Verif.Props.Guards Verif.Props.Bounds

/-- The value `v` is in the class given by the stride constraint `c`; `y` are the values of the columns of the
bound, with the parameters from column `nb` on. -/
def InClass (s : Stride) (c : Row) (col nb nPar : Nat) (y : Nat → Int) (v : Int) : Prop :=
  s.stride ∣ (∑ i ∈ Finset.range col, c.at i * y i) + c.at col * v +
    (∑ q ∈ Finset.range nPar, c.at (c.coef.length - nPar + q) * y (nb + q)) + c.cst

/-- C66.  The lower bound that is generated from a constraint, for a loop with a stride, is the least value that
is in the class of the stride and satisfies the constraint.  (Assumed is that the integer division that is
left has a definition in lowest terms, `Faithful`; otherwise this is false: `C66_skips`.) -/
theorem C66_first_partial (cx : Ctx) (hfl : FloorLaws cx.floorAff) (s : Stride) (c : Row) (col : Nat)
    (vars : Nat → Expr) (r : Row) (hp : cx.nm.nPar ≤ r.coef.length) (hcol : col < r.coef.length - cx.nm.nPar)
    (ha : 0 < r.at col) (hq : r.isEq = false) (hs : 0 < s.stride) (h1 : cx.nm.nPar ≤ c.coef.length)
    (h2 : col + 1 ≤ c.coef.length - cx.nm.nPar) (h3 : s.stride ∣ s.factor * c.at col + 1)
    (hfa : ∀ e, (cx.floorAff (strideDiv cx.nm.nPar s c col r)).2 = some e → Faithful e) (env : Env) :
    ∃ b, strideBound cx s c col vars r = some b ∧
      IsLeast {v | InClass s c col (r.coef.length - cx.nm.nPar) cx.nm.nPar (fun i => (vars i).eval env) v ∧
        r.holds (Function.update (fun i => (vars i).eval env) col v)} (b.eval env) := by
  obtain ⟨b, hb, hbe⟩ := strideBound_eval cx hfl s c col vars r hp hcol ha hs env hfa
  refine ⟨b, hb, ?_⟩
  generalize hnb : r.coef.length - cx.nm.nPar = nb at *
  generalize hy : (fun i => (vars i).eval env) = y at *
  have hoff := offVal_eq cx.nm s c col nb hcol y y (fun q => y (nb + q)) h1 h2 (fun _ _ _ => rfl) (fun _ _ => rfl)
  rw [show r.coef.length = nb + cx.nm.nPar by omega, hoff] at hbe
  have hcls : ∀ v, InClass s c col nb cx.nm.nPar y v ↔
      s.stride ∣ Stride.conVal c col (col + 1) cx.nm.nPar (Function.update
        (fun k => if k < col + 1 then y k else y (nb + (k - (col + 1)))) col 0) + c.at col * v := by
    intro v
    rw [← conVal_update c col _ _ _ v h1 h2 (by omega), conVal_eq c col _ _ _ h1 h2, Function.update_self]
    unfold InClass
    have e1 : ∑ k ∈ Finset.range col, c.at k *
        Function.update (fun k => if k < col + 1 then y k else y (nb + (k - (col + 1)))) col v k =
        ∑ i ∈ Finset.range col, c.at i * y i := by
      refine Finset.sum_congr rfl fun i hi => ?_
      have := Finset.mem_range.1 hi
      rw [Function.update_of_ne (by omega), if_pos (by omega)]
    have e2 : ∑ q ∈ Finset.range cx.nm.nPar, c.at (c.coef.length - cx.nm.nPar + q) *
        Function.update (fun k => if k < col + 1 then y k else y (nb + (k - (col + 1)))) col v (col + 1 + q) =
        ∑ q ∈ Finset.range cx.nm.nPar, c.at (c.coef.length - cx.nm.nPar + q) * y (nb + q) := by
      refine Finset.sum_congr rfl fun q _ => ?_
      rw [Function.update_of_ne (by omega), if_neg (by omega), show col + 1 + q - (col + 1) = q by omega]
    rw [e1, e2]
  obtain ⟨k1, k2⟩ := class_bound (f := r.val (Function.update y col 0)) ha hs rfl h3
    (g := Stride.conVal c col (col + 1) cx.nm.nPar (Function.update
        (fun k => if k < col + 1 then y k else y (nb + (k - (col + 1)))) col 0))
  rw [← hbe] at k1 k2
  have hh : ∀ v, r.holds (Function.update y col v) ↔ 0 ≤ r.val (Function.update y col 0) + r.at col * v := by
    intro v
    unfold Row.holds
    rw [hq, if_neg (by simp), Row.val_update]
  refine ⟨⟨(hcls _).2 k1, (hh _).2 ((k2 _ k1).1 (le_refl _))⟩, fun v hv => ?_⟩
  exact (k2 v ((hcls v).1 hv.1)).2 ((hh v).1 hv.2)

/-! ## Examples -/

theorem dot_split (m : Int) : ∀ (cs : List Int) (i : Nat) (y : Point),
    dotFrom cs i y = m * dotFrom (cs.map (· / m)) i y + dotFrom (cs.map (· % m)) i y
  | [], _, _ => by simp [dotFrom]
  | c :: cs, i, y => by
    simp only [List.map_cons, dotFrom]
    rw [dot_split m cs (i + 1) y]
    have := Int.mul_ediv_add_emod c m
    linear_combination (-y i) * this

theorem dot_zero (m : Int) : ∀ (cs : List Int) (i : Nat) (y : Point), (∀ c ∈ cs, c % m = 0) →
    dotFrom (cs.map (· % m)) i y = 0
  | [], _, _, _ => by simp [dotFrom]
  | c :: cs, i, y, h => by
    simp only [List.map_cons, dotFrom]
    rw [dot_zero m cs (i + 1) y (fun x hx => h x (by simp [hx])), h c (by simp)]
    simp

/-- Splitting all coefficients is a way to compute the floor. -/
theorem plainFloor_laws : FloorLaws plainFloor where
  val d y hd := by
    have h1 := dot_split d.den d.num 0 y
    have h2 := Int.mul_ediv_add_emod d.cst d.den
    have h3 : dotFrom d.num 0 y + d.cst = (dotFrom (d.num.map (· % d.den)) 0 y + d.cst % d.den) +
        (dotFrom (d.num.map (· / d.den)) 0 y + d.cst / d.den) * d.den := by linear_combination h1 - h2
    rw [h3, Int.add_mul_ediv_right _ _ (by omega)]
    unfold plainFloor restVal
    dsimp only
    split
    · rename_i h
      split at h
      · rename_i ha
        simp only [List.all_eq_true, beq_iff_eq] at ha
        rw [dot_zero _ _ _ _ ha, Int.zero_add,
          Int.ediv_eq_zero_of_lt (Int.emod_nonneg _ (by omega)) (Int.emod_lt_of_pos _ hd)]
        ring
      · cases h
    · rename_i e h
      split at h
      · cases h
      · simp only [Option.some.injEq] at h
        subst h
        ring
  keep d i h := by
    unfold plainFloor
    dsimp only
    rw [List.getD_eq_getElem?_getD] at h ⊢
    rw [List.getElem?_map]
    cases hx : d.num[i]? with
    | none => rfl
    | some v =>
      rw [hx] at h
      simp only [Option.getD_some] at h
      simp [h]
  len d := by simp [plainFloor]

/-- Iterators `j`, `k` and `i` and no parameter. -/
def exNm : Names := ⟨0, 0, fun k => ["j", "k", "i"].getD k "?", fun _ => "?"⟩

def exC : Ctx := { exCx with nm := exNm }

/-- The expressions of the columns. -/
def exV (i : Nat) : Expr := .name (exNm.at_ i)

/-- `i = j + k + 1 mod 3`, as `j + k - i + 1 - 3 e = 0`. -/
def st3 : Stride := ⟨3, 1, 0, some ⟨true, [1, 1, -1, -3], 1⟩⟩

-- `i >= 2` becomes `i >= j + k + 1 - 3 floor((j + k - 1) / 3)`
example : strideBound exC st3 ⟨true, [1, 1, -1, -3], 1⟩ 2 exV ⟨false, [0, 0, 1], -2⟩ =
    some (.red .sum [.term 1 (.name "j"), .term 1 (.name "k"),
      .term (-3) (.bin .fdiv (.red .sum [.term 1 (.name "j"), .term 1 (.name "k"), .cst 2]) 3), .cst 4]) := by decide

example (env : Env) := C66_first_partial exC plainFloor_laws st3 ⟨true, [1, 1, -1, -3], 1⟩ 2 exV
  ⟨false, [0, 0, 1], -2⟩ (by decide) (by decide) (by decide) rfl (by decide) (by decide) (by decide) (by decide)
  (fun e h => by
    have : (exC.floorAff (strideDiv exC.nm.nPar st3 ⟨true, [1, 1, -1, -3], 1⟩ 2 ⟨false, [0, 0, 1], -2⟩)).2 =
        some ⟨[1, 1, 0], 2, 3⟩ := by decide
    rw [this] at h
    cases h
    unfold Faithful
    decide) env

/-- `i = 2 j + k mod 4`. -/
def st4 : Stride := ⟨4, 1, 0, some ⟨true, [2, 1, -1, -4], 0⟩⟩

/-- The constraint `i >= 0`, for a loop with stride 4 over the `i = 2 j + k mod 4`, gives the bound
`2*j+k-4*floord(j+k,4)`.  For `j = 2` and `k = 0` this is 4, and `i = 0` is skipped. -/
theorem C66_skips : ∃ (b : Expr) (env : Env),
    strideBound exC st4 ⟨true, [2, 1, -1, -4], 0⟩ 2 exV ⟨false, [0, 0, 1], 0⟩ = some b ∧
    b = .red .sum [.term 2 (.name "j"), .term 1 (.name "k"),
      .term (-4) (.bin .fdiv (.red .sum [.term 1 (.name "j"), .term 1 (.name "k")]) 4)] ∧
    b.eval env = 4 ∧
    InClass st4 ⟨true, [2, 1, -1, -4], 0⟩ 2 3 0 (fun i => (exV i).eval env) 0 ∧
    Row.holds ⟨false, [0, 0, 1], 0⟩ (Function.update (fun i => (exV i).eval env) 2 0) := by
  refine ⟨_, fun s => if s = "j" then 2 else 0, by decide, rfl, by decide, ?_, by decide⟩
  unfold InClass
  decide

/-! ## The assumptions of C25 about strides -/

/-- `0 <= i <= 2 N` and `i = N mod 3`, with `a = floor((i - N)/3)`. -/
def exD3 : Dom := ⟨1, [⟨[1, 0, -1], 0, 3⟩],
  [⟨false, [1, 0, 0], 0⟩, ⟨false, [-1, 0, 2], 0⟩, ⟨true, [-1, 3, 1], 0⟩]⟩

/-- Its stride. -/
def exSt3 : Stride := ⟨3, 1, 0, some ⟨true, [-1, 3, 1], 0⟩⟩

/-- A loop over it with one statement. -/
def exTree3 : List Loop := [.mk ⟨0, [], []⟩ none false [] [.mk exD3 (some exSt3) false []
  [.mk ⟨1, [], []⟩ none false [5] []]]]

/-- `for (i=N-3*floord(N,3);i<=2*N;i+=3) S(i);` -/
example : clastCreate ClastExec.exC gmpCmp exTree3 = some [.for_ "i"
    (some (.red .max [.red .sum [.term (-3) (.bin .fdiv (.red .sum [.term 1 (.name "N")]) 3), .term 1 (.name "N")]]))
    (some (.red .min [.red .sum [.term 2 (.name "N")]])) 3 [.user 5 [.term 1 (.name "i")]]] := by rfl

example (p : Nat → Int) : ForOK ClastExec.exC p 1 (fun _ => false) (fun _ => True) exD3 (some exSt3) false := by
  refine ⟨by decide, by decide, ?_, ?_, ?_, ?_, ?_, by simp⟩
  · intro r hr hq _ c hc hz
    have hl := Row.at_lt r c hz
    have hlen : ∀ r ∈ exD3.rows, r.coef.length = 3 := by decide
    have hd : ∀ r ∈ exD3.rows, r.isEq = false → r.at 1 = 0 := by decide
    have := hlen r hr
    by_cases h3 : c = 1
    · subst h3; exact absurd (hd r hr hq) hz
    · obtain rfl : c = 2 := by omega
      decide
  · intro x _ hs h r hr
    by_cases hq : r.isEq = true ∧ r.at (1 - 1) ≠ 0
    · have : ∀ r ∈ exD3.rows, r.isEq = true → r = ⟨true, [-1, 3, 1], 0⟩ := by decide
      rw [this r hr hq.1]
      have hn : ClastExec.exC.nm.nPar = 1 := rfl
      simp [strideOk, Stride.holds, exSt3, Stride.conVal, dotFrom, hn] at hs
      simp [exD3, Row.holds, Row.val, dotFrom, Dom.pt, divVals]
      omega
    · exact h r hr hq
  · intro s hs
    cases hs
    decide
  · intro s hs hc
    cases hs
    cases hc
  · intro s c hs hc
    cases hs
    cases hc
    refine ⟨plainFloor_laws, show _ ∧ _ ∧ _ from ⟨by decide, by decide, by decide⟩, fun c _ i hi => by simp at hi, ?_⟩
    intro r hr hq ha e he
    have : ∀ r ∈ exD3.rows, r.isEq = false → 0 < r.at (1 - 1) → r = ⟨false, [1, 0, 0], 0⟩ := by decide
    rw [this r hr hq ha] at he
    have hfl : (ClastExec.exC.floorAff (strideDiv ClastExec.exC.nm.nPar exSt3 ⟨true, [-1, 3, 1], 0⟩ (1 - 1)
        ⟨false, [1, 0, 0], 0⟩)).2 = some ⟨[0, 0, 1], 0, 3⟩ := by decide
    rw [hfl] at he
    cases he
    unfold Faithful
    decide

end Verif.Props.StrideBound
