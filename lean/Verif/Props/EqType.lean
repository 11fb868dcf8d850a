import Verif.Model.EqTable
import Verif.Model.ClastGen
import Verif.Props.EqTable
import Mathlib.Algebra.BigOperators.Group.Finset.Basic
import Mathlib.Algebra.Order.BigOperators.Group.Finset
import Mathlib.Algebra.BigOperators.Ring.Finset

/-!
# C59: which equalities are spread

`cloog_constraint_equal_type` of both backends (`source/matrix/constraintset.c:271-300`,
`source/isl/constraints.c:330-397`) and its use in `clast_equal_allow` (`source/clast.c:575-587`).
-/

namespace Verif.Props.EqType

/-! ## Specification -/

/-- An affine form: the variables `I`, their coefficients and the constant. -/
def form (I : Finset Nat) (a : Nat → Int) (c : Int) (X : Nat → Int) : Int := (∑ j ∈ I, a j * X j) + c

/-- The equality says that variable `v` has a fixed value, and nothing else. -/
def Fixes (I : Finset Nat) (a : Nat → Int) (c : Int) (v : Nat) : Prop :=
  ∃ k : Int, ∀ X, form I a c X = 0 ↔ X v = k

/-- The equality says that variable `v` is equal or opposite to another one, and nothing else. -/
def Renames (I : Finset Nat) (a : Nat → Int) (c : Int) (v : Nat) : Prop :=
  ∃ w ∈ I, w ≠ v ∧ ∃ s : Int, (s = 1 ∨ s = -1) ∧ ∀ X, form I a c X = 0 ↔ X v = s * X w

/-- An equality at level `L` is not spread. -/
def Stays (fsp : Nat) (esp : Bool) (I : Finset Nat) (a : Nat → Int) (c : Int) (v : Nat) (L : Nat) : Prop :=
  L < fsp ∨ (esp = false ∧ ¬ ((a v = 1 ∨ a v = -1) ∧ (Fixes I a c v ∨ Renames I a c v)))

/-! ## Coefficients -/

/-- A point with value `k` at `v`, `l` at `w`, 0 elsewhere. -/
def two (v : Nat) (k : Int) (w : Nat) (l : Int) (j : Nat) : Int := if j = v then k else if j = w then l else 0

theorem form_two {I : Finset Nat} {a : Nat → Int} {c : Int} {v w : Nat} (hv : v ∈ I) (hw : w ∈ I) (h : w ≠ v)
    (k l : Int) : form I a c (two v k w l) = a v * k + a w * l + c := by
  unfold form
  rw [← Finset.add_sum_erase I _ hv, ← Finset.add_sum_erase (I.erase v) _ (Finset.mem_erase.2 ⟨h, hw⟩)]
  rw [Finset.sum_eq_zero (s := (I.erase v).erase w)]
  · simp [two, h]
  · intro x hx
    simp only [Finset.mem_erase] at hx
    simp [two, hx.1, hx.2.1]

theorem form_one {I : Finset Nat} {a : Nat → Int} {c : Int} {v : Nat} (hv : v ∈ I) (k : Int) :
    form I a c (fun j => if j = v then k else 0) = a v * k + c := by
  unfold form
  rw [Finset.sum_eq_single v]
  · simp
  · intro b _ hb
    simp [hb]
  · intro h
    exact absurd hv h

def Unit (z : Int) : Prop := z = 1 ∨ z = -1

theorem fixes_iff {I : Finset Nat} {a : Nat → Int} {c : Int} {v : Nat} (hv : v ∈ I) (hu : Unit (a v)) :
    Fixes I a c v ↔ ∀ j ∈ I, j ≠ v → a j = 0 := by
  constructor
  · rintro ⟨k, hk⟩ j hj hjv
    have h1 := (hk (two v k j 0)).2 (by simp [two])
    have h2 := (hk (two v k j 1)).2 (by simp [two])
    rw [form_two hv hj hjv] at h1 h2
    linarith
  · intro h
    refine ⟨- (a v) * c, fun X => ?_⟩
    have : form I a c X = a v * X v + c := by
      unfold form
      rw [Finset.sum_eq_single v]
      · intro b hb hbv
        rw [h b hb hbv, zero_mul]
      · intro h
        exact absurd hv h
    rw [this]
    rcases hu with hu | hu <;> rw [hu] <;> constructor <;> intro <;> linarith

theorem renames_iff {I : Finset Nat} {a : Nat → Int} {c : Int} {v : Nat} (hv : v ∈ I) (hu : Unit (a v)) :
    Renames I a c v ↔ c = 0 ∧ ∃ w ∈ I, w ≠ v ∧ Unit (a w) ∧ ∀ j ∈ I, j ≠ v → j ≠ w → a j = 0 := by
  constructor
  · rintro ⟨w, hw, hwv, s, hs, h⟩
    have h0 := (h (two v 0 w 0)).2 (by simp [two])
    rw [form_two hv hw hwv] at h0
    have h1 := (h (two v s w 1)).2 (by simp [two, hwv])
    rw [form_two hv hw hwv] at h1
    refine ⟨by linarith, w, hw, hwv, ?_, fun j hj hjv hjw => ?_⟩
    · unfold Unit at *
      rcases hu with hu | hu <;> rcases hs with hs | hs <;> rw [hu, hs] at h1 <;> omega
    · have h2 := (h (two v 0 j 1)).2 (by simp [two, hwv, Ne.symm hjw])
      rw [form_two hv hj hjv] at h2
      linarith
  · rintro ⟨rfl, w, hw, hwv, hu', h⟩
    have hf : ∀ X, form I a 0 X = a v * X v + a w * X w := by
      intro X
      unfold form
      rw [← Finset.add_sum_erase I _ hv, ← Finset.add_sum_erase (I.erase v) _ (Finset.mem_erase.2 ⟨hwv, hw⟩)]
      rw [Finset.sum_eq_zero (s := (I.erase v).erase w)]
      · ring
      · intro x hx
        simp only [Finset.mem_erase] at hx
        rw [h x hx.2.2 hx.2.1 hx.1, zero_mul]
    refine ⟨w, hw, hwv, - (a v) * a w, ?_, fun X => ?_⟩
    · rcases hu with hu | hu <;> rcases hu' with hu' | hu' <;> rw [hu, hu'] <;> simp
    · rw [hf]
      rcases hu with hu | hu <;> rcases hu' with hu' | hu' <;> rw [hu, hu'] <;> constructor <;> intro <;> linarith

/-! ## Scans over the columns -/

/-- The columns with another variable. -/
def others (a : Nat → Int) (v : Nat) (cs : List Nat) : List Nat := cs.filter (fun j => decide (j ≠ v ∧ a j ≠ 0))

theorem others_nil {a : Nat → Int} {v : Nat} {cs : List Nat} :
    others a v cs = [] ↔ ∀ j ∈ cs, j ≠ v → a j = 0 := by
  unfold others
  rw [List.filter_eq_nil_iff]
  constructor
  · intro h j hj hv
    by_contra hn
    exact h j hj (by simp [hv, hn])
  · intro h j hj hn
    simp only [decide_eq_true_eq] at hn
    exact hn.2 (h j hj hn.1)

theorem others_one {a : Nat → Int} {v : Nat} {cs : List Nat} (hc : cs.Nodup) :
    (∃ w, others a v cs = [w] ∧ Unit (a w)) ↔
      ∃ w ∈ cs, w ≠ v ∧ Unit (a w) ∧ ∀ j ∈ cs, j ≠ v → j ≠ w → a j = 0 := by
  constructor
  · rintro ⟨w, hw, hu⟩
    have hm : ∀ j, j ∈ others a v cs ↔ j = w := by simp [hw]
    have h1 := (hm w).2 rfl
    simp only [others, List.mem_filter, decide_eq_true_eq] at h1
    refine ⟨w, h1.1, h1.2.1, hu, fun j hj hv hjw => ?_⟩
    by_contra hn
    exact hjw ((hm j).1 (by simp [others, hj, hv, hn]))
  · rintro ⟨w, h1, h2, hu, h3⟩
    refine ⟨w, ?_, hu⟩
    have hn : (others a v cs).Nodup := hc.filter _
    have hm : ∀ j, j ∈ others a v cs ↔ j = w := by
      intro j
      simp only [others, List.mem_filter, decide_eq_true_eq]
      constructor
      · rintro ⟨a1, a2, a3⟩
        by_contra hne
        exact a3 (h3 j a1 a2 hne)
      · rintro rfl
        refine ⟨h1, h2, ?_⟩
        rcases hu with h | h <;> rw [h] <;> decide
    have hp : List.Perm (others a v cs) [w] := by
      rw [List.perm_ext_iff_of_nodup hn (by simp)]
      intro j
      rw [hm]
      simp
    exact List.perm_singleton.1 hp

/-! ## Matrix backend -/

section
open Verif.EqTable Verif.Props.EqTable

theorem typeGo_spec (level : Nat) (a : Nat → Int) : ∀ (vs : List Int) (i : Nat) (one : Bool),
    (∀ k, k < vs.length → vs.getD k 0 = a (i + k)) →
    typeGo level vs i one =
      match one, others a level (List.range' i vs.length) with
      | one, [] => some one
      | false, [w] => if a w = 1 ∨ a w = -1 then some true else none
      | _, _ => none
  | [], i, one, _ => by cases one <;> simp [typeGo, others]
  | v :: vs, i, one, h => by
    have h0 : v = a i := by simpa using h 0 (by simp)
    have ht : ∀ k, k < vs.length → vs.getD k 0 = a (i + 1 + k) := by
      intro k hk
      have := h (k + 1) (by simp; omega)
      simpa [Nat.add_assoc, Nat.add_comm 1] using this
    rw [typeGo, typeGo_spec level a vs (i + 1) _ ht, typeGo_spec level a vs (i + 1) _ ht]
    have hr : List.range' i (v :: vs).length = i :: List.range' (i + 1) vs.length := by
      simp [List.range'_succ]
    rw [hr]
    unfold others
    rw [List.filter_cons, h0]
    generalize List.filter (fun j => decide (j ≠ level ∧ a j ≠ 0)) (List.range' (i + 1) vs.length) = ns
    by_cases hi : i ≠ level ∧ a i ≠ 0
    · have hd : decide (i ≠ level ∧ a i ≠ 0) = true := decide_eq_true hi
      rw [if_pos ⟨hi.2, hi.1⟩, if_pos hd]
      cases one
      · cases ns with
        | nil =>
          simp only [Bool.false_eq_true, or_false]
          by_cases hu : a i = 1 ∨ a i = -1
          · rw [if_neg (by omega), if_pos hu]
          · rw [if_pos (by omega), if_neg hu]
        | cons w ns => simp
      · simp
    · have hd : ¬ decide (i ≠ level ∧ a i ≠ 0) = true := by rw [decide_eq_true_iff]; exact hi
      rw [if_neg (by tauto), if_neg hd]

/-- **C59**, matrix backend: the type of an equality on the iterator in column `level` is 1 (constant) exactly if
the coefficient of the iterator is 1 or -1 and the equality fixes the iterator; 2 (pure item) exactly if
the coefficient is 1 or -1 and the equality says that the iterator is equal or opposite to another
variable; else 3. -/
theorem C59_matrix (r : Row) (level : Nat) (h1 : 1 ≤ level) (h2 : level + 1 < r.length) :
    let I := Finset.Ico 1 (r.length - 1)
    let c := at_ r (r.length - 1)
    (equalType r level = 1 ↔ Unit (at_ r level) ∧ Fixes I (at_ r) c level) ∧
    (equalType r level = 2 ↔ Unit (at_ r level) ∧ Renames I (at_ r) c level) ∧
    (equalType r level = 1 ∨ equalType r level = 2 ∨ equalType r level = 3) := by
  intro I c
  have hv : level ∈ I := by simp [I]; omega
  unfold equalType
  by_cases hu : Unit (at_ r level)
  swap
  · have : at_ r level ≠ 1 ∧ at_ r level ≠ -1 := by unfold Unit at hu; omega
    rw [if_pos this]
    simp [hu]
  · have hn : ¬ (at_ r level ≠ 1 ∧ at_ r level ≠ -1) := by unfold Unit at hu; omega
    rw [if_neg hn]
    have hsp := typeGo_spec level (at_ r) ((r.drop 1).dropLast) 1 false (by
      intro k hk
      simp only [List.length_dropLast, List.length_drop] at hk
      unfold at_
      rw [List.getD_eq_getElem?_getD, List.getD_eq_getElem?_getD]
      congr 1
      rw [List.getElem?_dropLast, if_pos (by simp; omega), List.getElem?_drop])
    have hl : ((r.drop 1).dropLast).length = r.length - 2 := by simp; omega
    rw [hl] at hsp
    have hI : ∀ j, j ∈ List.range' 1 (r.length - 2) ↔ j ∈ I := by
      intro j
      simp [I, List.mem_range'_1]
      omega
    have hf := fixes_iff (c := c) hv hu
    have hr := renames_iff (c := c) hv hu
    have o0 := others_nil (a := at_ r) (v := level) (cs := List.range' 1 (r.length - 2))
    have o1 := others_one (a := at_ r) (v := level) (cs := List.range' 1 (r.length - 2)) List.nodup_range'
    simp only [hI] at o0 o1
    rw [← o0] at hf
    rw [← o1] at hr
    rw [hf, hr, hsp]
    generalize others (at_ r) level (List.range' 1 (r.length - 2)) = ns
    match ns with
    | [] => simp [hu]
    | [w] =>
      by_cases hw : at_ r w = 1 ∨ at_ r w = -1
      · by_cases hc : at_ r (r.length - 1) = 0
        · have hw' : Unit (at_ r w) := hw
          simp [hw, hc, hu, hw', c]
        · simp [hw, hc, c]
      · simp [hw, Unit]
    | w :: w' :: ns => simp
end

/-! ## isl backend -/

section
open Verif.ClastGen Verif.Bound

theorem eqTypeCols_spec (r : Row) (v : Nat) : ∀ (cs : List Nat) (t : EqType),
    eqTypeCols r v cs t =
      match others r.at v cs, t with
      | [], t => t
      | [w], .none_ => if r.at w = 1 ∨ r.at w = -1 then .pure else .exaffine
      | _, _ => .exaffine
  | [], t => by simp [eqTypeCols, others]
  | c :: cs, t => by
    rw [eqTypeCols, eqTypeCols_spec r v cs, eqTypeCols_spec r v cs]
    unfold others
    rw [List.filter_cons]
    generalize List.filter (fun j => decide (j ≠ v ∧ r.at j ≠ 0)) cs = ns
    by_cases hi : c ≠ v ∧ r.at c ≠ 0
    · have hd : decide (c ≠ v ∧ r.at c ≠ 0) = true := decide_eq_true hi
      rw [if_neg (by tauto), if_pos hd]
      cases ns with
      | nil =>
        cases t <;> simp
        by_cases hu : r.at c = 1 ∨ r.at c = -1
        · rw [if_neg (by omega), if_pos hu]
        · rw [if_pos (by omega), if_neg hu]
      | cons w ns => cases t <;> simp
    · have hd : ¬ decide (c ≠ v ∧ r.at c ≠ 0) = true := by rw [decide_eq_true_iff]; exact hi
      rw [if_pos (by tauto), if_neg hd]

theorem eqTypeCols_append (r : Row) (v : Nat) : ∀ (cs ds : List Nat) (t : EqType),
    eqTypeCols r v ds (eqTypeCols r v cs t) = eqTypeCols r v (cs ++ ds) t
  | [], ds, t => rfl
  | c :: cs, ds, t => by
    rw [List.cons_append, eqTypeCols, eqTypeCols]
    split
    · exact eqTypeCols_append r v cs ds t
    · split
      · rw [eqTypeCols_spec]
        split <;> simp_all
      · exact eqTypeCols_append r v cs ds _

/-- **C59**, isl backend: as for the matrix backend. -/
theorem C59_isl (D : Dom) (nPar : Nat) (r : Row) (v : Nat) (hv : v < D.nIter + D.divs.length + nPar) :
    let I := Finset.range (D.nIter + D.divs.length + nPar)
    (eqType D nPar r v = .constant ↔ Unit (r.at v) ∧ Fixes I r.at r.cst v) ∧
    (eqType D nPar r v = .pure ↔ Unit (r.at v) ∧ Renames I r.at r.cst v) ∧
    eqType D nPar r v ≠ .none_ := by
  intro I
  have hvI : v ∈ I := by simpa [I] using hv
  unfold eqType
  dsimp only
  rw [eqTypeCols_append, eqTypeCols_append, eqTypeCols_spec]
  generalize hcs : ((List.range nPar).map (· + (D.nIter + D.divs.length)) ++ (List.range D.nIter ++
    (List.range D.divs.length).map (· + D.nIter))) = cs
  have hI : ∀ j, j ∈ cs ↔ j ∈ I := by
    intro j
    rw [← hcs]
    simp only [List.mem_append, List.mem_map, List.mem_range, I, Finset.mem_range]
    constructor
    · rintro (⟨a, h, rfl⟩ | h | ⟨a, h, rfl⟩) <;> omega
    · intro h
      by_cases h1 : j < D.nIter
      · exact Or.inr (Or.inl h1)
      · by_cases h2 : j < D.nIter + D.divs.length
        · exact Or.inr (Or.inr ⟨j - D.nIter, by omega, by omega⟩)
        · exact Or.inl ⟨j - (D.nIter + D.divs.length), by omega, by omega⟩
  have hnd : cs.Nodup := by
    rw [← hcs]
    rw [List.nodup_append, List.nodup_append]
    refine ⟨List.nodup_range.map (fun a b h => by simpa using h), ⟨List.nodup_range,
      List.nodup_range.map (fun a b h => by simpa using h), ?_⟩, ?_⟩
    · intro a ha b hb
      simp only [List.mem_map, List.mem_range] at ha hb
      omega
    · intro a ha b hb
      simp only [List.mem_append, List.mem_map, List.mem_range] at ha hb
      omega
  have o0 := others_nil (a := r.at) (v := v) (cs := cs)
  have o1 := others_one (a := r.at) (v := v) hnd
  simp only [hI] at o0 o1
  by_cases hu : Unit (r.at v)
  swap
  · have : r.at v ≠ 1 ∧ r.at v ≠ -1 := by unfold Unit at hu; omega
    simp only [this, ne_eq, not_false_eq_true, and_self, if_true, hu, false_and, iff_false]
    split <;> simp_all
  · have hn : ¬ (r.at v ≠ 1 ∧ r.at v ≠ -1) := by unfold Unit at hu; omega
    have hf := fixes_iff (c := r.cst) hvI hu
    have hr := renames_iff (c := r.cst) hvI hu
    rw [← o0] at hf
    rw [← o1] at hr
    rw [hf, hr, if_neg hn]
    generalize others r.at v cs = ns
    match ns with
    | [] => by_cases hc : r.cst = 0 <;> simp [hu, hc]
    | [w] =>
      by_cases hc : r.cst = 0
      · by_cases hw : r.at w = 1 ∨ r.at w = -1
        · have hw' : Unit (r.at w) := hw
          simp [hw, hc, hu, hw']
        · simp [hw, Unit, hc]
      · simp [hc]
    | w :: w' :: ns => simp

/-- **C59**: an equality of one constraint at level `L` leaves an assignment in the code exactly if the level
comes before `-fsp`, or `-esp 0` is given and the equality neither fixes the iterator nor equates it to
another variable or its opposite. -/
theorem C59_spread (cx : Ctx) (D : Dom) (L : Nat) (eqs : List (Nat × Row)) (strides : Nat → Option Stride)
    (upper : Row) (ho : cx.otl = true) (hv : L - 1 < D.nIter + D.divs.length + cx.nm.nPar)
    (s : Step) (h : insertEquation cx D L eqs strides upper none = some s) (hgo : s.go = true) :
    let I := Finset.range (D.nIter + D.divs.length + cx.nm.nPar)
    ∃ o e, modGuard cx D eqs strides L upper none (L - 1) = some o ∧
      boundFromConstraint upper (L - 1) (D.vars cx.nm) = some e ∧
      (Stays cx.fsp cx.esp I upper.at upper.cst (L - 1) L →
        ∀ body, s.wrap body = o.wrap (assign cx (L - 1) e body)) ∧
      (¬ Stays cx.fsp cx.esp I upper.at upper.cst (L - 1) L → ∀ body, s.wrap body = o.wrap body) := by
  intro I
  obtain ⟨t1, t2, t3⟩ := C59_isl D cx.nm.nPar upper (L - 1) hv
  have hx : eqType D cx.nm.nPar upper (L - 1) = .exaffine ↔
      ¬ (Unit (upper.at (L - 1)) ∧ (Fixes I upper.at upper.cst (L - 1) ∨ Renames I upper.at upper.cst (L - 1))) := by
    rw [and_or_left, ← t1, ← t2]
    revert t3
    cases eqType D cx.nm.nPar upper (L - 1) <;> simp
  unfold insertEquation at h
  rw [ho] at h
  simp only [Bool.not_true, Bool.false_eq_true, if_false] at h
  cases hm : modGuard cx D eqs strides L upper none (L - 1) with
  | none => rw [hm] at h; simp at h
  | some o =>
    rw [hm] at h
    simp only [Option.bind_eq_bind, Option.bind_some] at h
    split at h
    · simp at h
      rw [← h] at hgo
      simp at hgo
    · cases he : boundFromConstraint upper (L - 1) (D.vars cx.nm) with
      | none => rw [he] at h; simp at h
      | some e =>
        rw [he] at h
        simp only [Option.bind_some] at h
        refine ⟨o, e, rfl, rfl, ?_⟩
        have hst : Stays cx.fsp cx.esp I upper.at upper.cst (L - 1) L ↔
            (L < cx.fsp ∨ (cx.esp = false ∧ eqType D cx.nm.nPar upper (L - 1) = .exaffine)) := by
          rw [hx]
          rfl
        rw [hst]
        unfold equalAllow at h
        by_cases h1 : L < cx.fsp
        · simp [h1] at h
          simp [h1, ← h]
        · by_cases h2 : eqType D cx.nm.nPar upper (L - 1) = .exaffine ∧ cx.esp = false
          · simp [h1, h2.1, h2.2] at h
            simp [h1, h2.1, h2.2, ← h]
          · rw [if_neg h1, if_neg h2] at h
            simp at h
            refine ⟨fun hc => ?_, fun _ body => by rw [← h]⟩
            rcases hc with hc | hc
            · exact absurd hc h1
            · exact absurd ⟨hc.2, hc.1⟩ h2
end

/-! ## Cases -/

open Verif.EqTable in
/-- `i = 3`, `j = -M`, `i = j + 1`, `2 i = M`, with the columns `i`, `j`, `M`. -/
example : equalType [0, 1, 0, 0, -3] 1 = 1 ∧ equalType [0, 0, 1, 1, 0] 2 = 2 ∧
    equalType [0, 1, -1, 0, -1] 1 = 3 ∧ equalType [0, 2, 0, -1, 0] 1 = 3 ∧ equalType [0, 1, -1, 1, 0] 1 = 3 := by
  decide

open Verif.EqTable in
example : Fixes (Finset.Ico 1 4) (at_ [0, 1, 0, 0, -3]) (-3) 1 :=
  (((C59_matrix [0, 1, 0, 0, -3] 1 (by decide) (by decide)).1).1 (by decide)).2

end Verif.Props.EqType
