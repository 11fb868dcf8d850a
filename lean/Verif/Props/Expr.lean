import Verif.Model.Clast
import Verif.Lemmas.IntOps
import Mathlib.Data.List.Basic
import Mathlib.Order.Defs.LinearOrder
import Mathlib.Data.String.Basic

/-!
# Properties of expression comparison: C08, C09 and the constant test used by C10
-/

namespace Verif.Props.Expr

open Verif.IntOps Verif.Clast

/-- What C08/C09 need from `cloog_int_cmp`: its sign is the order of its arguments. -/
def ICmpExact (icmp : Int → Int → Int) : Prop :=
  ∀ a b, (icmp a b < 0 ↔ a < b) ∧ (icmp a b = 0 ↔ a = b) ∧ (icmp a b > 0 ↔ a > b)

theorem gmpCmp_exact : ICmpExact gmpCmp := by
  intro a b
  unfold gmpCmp sgn
  split
  · refine ⟨?_, ?_, ?_⟩ <;> constructor <;> intro <;> omega
  · split <;> refine ⟨?_, ?_, ?_⟩ <;> constructor <;> intro <;> omega

theorem strcmp_zero {a b : String} : strcmp a b = 0 ↔ a = b := by
  unfold strcmp
  split
  · simp [*]
  · split <;> simp [*]

theorem redEval_single (t : RedType) (x : Int) : t.eval [x] = x := by
  cases t <;> simp [RedType.eval]

/-! ## C08 -/

mutual
theorem cmp_eval {icmp : Int → Int → Int} (h : ICmpExact icmp) (env : Env) :
    ∀ (e e' : Expr), exprCmp icmp e e' = 0 → e.eval env = e'.eval env
  | .name a, e' => by
    cases e' with
    | name b =>
      intro hc
      simp only [exprCmp] at hc
      rw [strcmp_zero.mp hc]
    | _ => intro hc; simp [exprCmp, Expr.rank] at hc
  | .cst c, e' => by
    cases e' with
    | cst c' =>
      intro hc; simp only [exprCmp] at hc
      rw [(h c c').2.1.mp hc]
    | _ => intro hc; simp [exprCmp, Expr.rank] at hc
  | .term c v, e' => by
    cases e' with
    | term c' v' =>
      intro hc
      simp only [exprCmp] at hc
      by_cases hv : exprCmp icmp v v' = 0
      · rw [if_neg (by simpa using hv)] at hc
        have := cmp_eval h env v v' hv
        simp only [Expr.eval, this, (h c c').2.1.mp hc]
      · rw [if_pos hv] at hc; exact absurd hc hv
    | _ => intro hc; simp [exprCmp, Expr.rank] at hc
  | .bin t l r, e' => by
    cases e' with
    | bin t' l' r' =>
      intro hc
      simp only [exprCmp] at hc
      by_cases ht : t = t'
      · subst ht
        rw [if_neg (by simp)] at hc
        by_cases hr : icmp r r' = 0
        · rw [if_neg (by simpa using hr)] at hc
          have := cmp_eval h env l l' hc
          simp only [Expr.eval, this, (h r r').2.1.mp hr]
        · rw [if_pos hr] at hc; exact absurd hc hr
      · rw [if_pos ht] at hc
        exfalso; apply ht
        cases t <;> cases t' <;> simp [BinType.rank] at hc ⊢
    | _ => intro hc; simp [exprCmp, Expr.rank] at hc
  | .red t l, e' => by
    cases e' with
    | red t' l' =>
      intro hc
      simp only [exprCmp] at hc
      by_cases h1 : l.length = 1 ∧ l'.length = 1
      · rw [if_pos h1] at hc
        have := cmpList_eval h env l l' (by omega) hc
        obtain ⟨x, rfl⟩ := List.length_eq_one_iff.mp h1.1
        obtain ⟨y, rfl⟩ := List.length_eq_one_iff.mp h1.2
        simp only [evalList, List.cons.injEq, and_true] at this
        simp only [Expr.eval, evalList, redEval_single, this]
      · rw [if_neg h1] at hc
        by_cases ht : t = t'
        · subst ht
          rw [if_neg (by simp)] at hc
          by_cases hl : l.length = l'.length
          · rw [if_neg (by simpa using hl)] at hc
            have := cmpList_eval h env l l' hl hc
            simp only [Expr.eval, this]
          · rw [if_pos hl] at hc; omega
        · rw [if_pos ht] at hc
          exfalso; apply ht
          cases t <;> cases t' <;> simp [RedType.rank] at hc ⊢
    | _ => intro hc; simp [exprCmp, Expr.rank] at hc

theorem cmpList_eval {icmp : Int → Int → Int} (h : ICmpExact icmp) (env : Env) :
    ∀ (l l' : List Expr), l.length = l'.length → cmpList icmp l l' = 0 →
      evalList env l = evalList env l'
  | [], [], _, _ => rfl
  | e :: es, [], hl, _ => by simp at hl
  | [], e :: es, hl, _ => by simp at hl
  | e :: es, e' :: es', hl, hc => by
    simp only [cmpList] at hc
    by_cases hv : exprCmp icmp e e' = 0
    · rw [if_neg (by simpa using hv)] at hc
      simp only [evalList, cmp_eval h env e e' hv,
        cmpList_eval h env es es' (by simpa using hl) hc]
    · rw [if_pos hv] at hc; exact absurd hc hv
end

/-- C08: expressions reported equal by `clast_expr_equal` have equal values in every environment,
provided `cloog_int_cmp` is exact (true in a GMP build, `gmpCmp_exact`). -/
theorem C08_equal_sound {icmp : Int → Int → Int} (h : ICmpExact icmp) (e e' : Expr)
    (heq : exprEqual icmp (some e) (some e') = true) (env : Env) : e.eval env = e'.eval env := by
  apply cmp_eval h env
  simpa [exprEqual, cmpOpt] using heq

mutual
theorem cmp_refl {icmp : Int → Int → Int} (h : ∀ a, icmp a a = 0) : ∀ e, exprCmp icmp e e = 0
  | .name a => by simp [exprCmp, strcmp]
  | .cst c => by simp [exprCmp, h]
  | .term c v => by simp [exprCmp, h, cmp_refl h v]
  | .bin t l r => by simp [exprCmp, h, cmp_refl h l]
  | .red t l => by simp [exprCmp, cmpList_refl h l]
theorem cmpList_refl {icmp : Int → Int → Int} (h : ∀ a, icmp a a = 0) : ∀ l, cmpList icmp l l = 0
  | [] => rfl
  | e :: es => by simp [cmpList, cmp_refl h e, cmpList_refl h es]
end

mutual
theorem copy_eq : ∀ e, Clast.copy e = e
  | .name _ => rfl
  | .cst _ => rfl
  | .term c v => by simp [Clast.copy, copy_eq v]
  | .bin t l r => by simp [Clast.copy, copy_eq l]
  | .red t l => by simp [Clast.copy, copyList_eq l]
theorem copyList_eq : ∀ l, copyList l = l
  | [] => rfl
  | e :: es => by simp [copyList, copy_eq e, copyList_eq es]
end

/-- C08: an expression is equal to itself and to its copy, in every integer configuration. -/
theorem C08_equal_refl_copy {icmp : Int → Int → Int} (h : ∀ a, icmp a a = 0) (e : Expr) :
    exprEqual icmp (some e) (some e) = true ∧ exprEqual icmp (some e) (some (Clast.copy e)) = true ∧
      ∀ env, (Clast.copy e).eval env = e.eval env := by
  rw [copy_eq]
  simp [exprEqual, cmpOpt, cmp_refl h]

/-- A one-element sum and a one-element max of the same expression are reported equal, and are. -/
example : exprEqual gmpCmp (some (.red .sum [.term 2 (.name "i")]))
    (some (.red .max [.term 2 (.name "i")])) = true := by decide

/-- C08 fails in a 64-bit build: the bounds `0` and `2^32` are reported equal, so a loop
`for (i=0;i<=4294967296;i++)` is collapsed into one iteration. -/
theorem C08_fixed_width_false :
    exprEqual llCmp (some (.cst 0)) (some (.cst (2 ^ 32))) = true ∧
    ∀ env : Env, (Expr.cst 0).eval env ≠ (Expr.cst (2 ^ 32)).eval env := by
  refine ⟨by decide, fun env => by simp [Expr.eval]⟩

/-! ## C09 -/

/-- The comparison is a total preorder on a class of expressions: this is what the C standard
requires of a `qsort` callback. -/
structure IsPreorderOn (c : Expr → Expr → Int) (P : Expr → Prop) : Prop where
  refl : ∀ a, P a → c a a = 0
  antisymm : ∀ a b, P a → P b → (c a b < 0 ↔ c b a > 0)
  trans : ∀ a b d, P a → P b → P d → c a b ≤ 0 → c b d ≤ 0 → c a d ≤ 0

/-- C09 is false of the code: `sum(z)`, `max(a)` and `min(x,y)` form a cycle: the one-element
reductions are compared by their elements, but against `min(x,y)` by their type. -/
theorem C09_not_transitive :
    let s := Expr.red .sum [.term 1 (.name "z")]
    let m := Expr.red .max [.term 1 (.name "a")]
    let n := Expr.red .min [.term 1 (.name "x"), .term 1 (.name "y")]
    exprCmp gmpCmp s n < 0 ∧ exprCmp gmpCmp n m < 0 ∧ exprCmp gmpCmp s m > 0 ∧
      ¬ IsPreorderOn (exprCmp gmpCmp) (fun _ => True) := by
  have h1 : exprCmp gmpCmp (Expr.red .sum [.term 1 (.name "z")])
    (Expr.red .min [.term 1 (.name "x"), .term 1 (.name "y")]) < 0 := by decide
  have h2 : exprCmp gmpCmp (Expr.red .min [.term 1 (.name "x"), .term 1 (.name "y")])
    (Expr.red .max [.term 1 (.name "a")]) < 0 := by decide
  have h3 : exprCmp gmpCmp (Expr.red .sum [.term 1 (.name "z")])
    (Expr.red .max [.term 1 (.name "a")]) > 0 := by decide
  refine ⟨h1, h2, h3, fun h => ?_⟩
  have := h.trans _ _ _ trivial trivial trivial (Int.le_of_lt h1) (Int.le_of_lt h2)
  omega

mutual
/-- Every reduction occurring in the expression is a sum. All expressions that `clast_minmax` sorts
are of this kind (`Props.Bounds.bound_sumOnly`). -/
def SumOnly : Expr → Prop
  | .name _ => True
  | .cst _ => True
  | .term _ v => SumOnly v
  | .bin _ l _ => SumOnly l
  | .red t l => t = .sum ∧ SumOnlyList l
/-- `SumOnly` for all elements of a list. -/
def SumOnlyList : List Expr → Prop
  | [] => True
  | e :: es => SumOnly e ∧ SumOnlyList es
end

theorem strcmp_swap (a b : String) : strcmp a b < 0 ↔ strcmp b a > 0 := by
  unfold strcmp
  by_cases h : a = b
  · subst h; simp
  · have h0 : ¬ b = a := fun h' => h h'.symm
    simp only [if_neg h, if_neg h0]
    by_cases h1 : a < b
    · have : ¬ b < a := not_lt_of_gt h1
      simp [h1, this]
    · have : b < a := lt_of_le_of_ne (not_lt.mp h1) (fun h' => h h'.symm)
      simp [h1, this]

theorem strcmp_trans {a b c : String} (h1 : strcmp a b ≤ 0) (h2 : strcmp b c ≤ 0) :
    strcmp a c ≤ 0 := by
  have key : ∀ x y : String, strcmp x y ≤ 0 ↔ x ≤ y := by
    intro x y
    unfold strcmp
    by_cases h : x = y
    · subst h; simp
    · rw [if_neg h]
      by_cases h1 : x < y
      · simp [h1, le_of_lt h1]
      · simp only [if_neg h1]
        constructor
        · intro h'; omega
        · intro h'; exact absurd (lt_of_le_of_ne h' h) h1
  rw [key] at *
  exact le_trans h1 h2

theorem cmp_rank {icmp : Int → Int → Int} {e e' : Expr} (h : e.rank ≠ e'.rank) :
    exprCmp icmp e e' = e.rank - e'.rank := by
  cases e <;> cases e' <;> simp [Expr.rank] at h <;> simp [exprCmp, Expr.rank]

mutual
theorem cmp_swap {icmp : Int → Int → Int} (h : ICmpExact icmp) :
    ∀ (e e' : Expr), (exprCmp icmp e e' < 0 ↔ exprCmp icmp e' e > 0) ∧ (exprCmp icmp e e' = 0 ↔ exprCmp icmp e' e = 0)
  | .name a, e' => by
    cases e' with
    | name b =>
      simp only [exprCmp]
      exact ⟨strcmp_swap a b, by rw [strcmp_zero, strcmp_zero]; exact eq_comm⟩
    | _ => rw [cmp_rank (by simp [Expr.rank]), cmp_rank (by simp [Expr.rank])]; simp [Expr.rank]
  | .cst c, e' => by
    cases e' with
    | cst c' =>
      simp only [exprCmp]
      have := h c c'; have := h c' c
      constructor <;> constructor <;> intro <;> omega
    | term c' v' => simp [exprCmp]
    | _ => rw [cmp_rank (by simp [Expr.rank]), cmp_rank (by simp [Expr.rank])]; simp [Expr.rank]
  | .term c v, e' => by
    cases e' with
    | cst c' => simp [exprCmp]
    | term c' v' =>
      simp only [exprCmp]
      have ih := cmp_swap h v v'
      have h1 := h c c'; have h2 := h c' c
      by_cases hz : exprCmp icmp v v' = 0
      · have hz' := ih.2.mp hz
        rw [if_neg (by simpa using hz), if_neg (by simpa using hz')]
        constructor <;> constructor <;> intro <;> omega
      · have hz' : exprCmp icmp v' v ≠ 0 := fun h' => hz (ih.2.mpr h')
        rw [if_pos hz, if_pos hz']; exact ih
    | _ => rw [cmp_rank (by simp [Expr.rank]), cmp_rank (by simp [Expr.rank])]; simp [Expr.rank]
  | .bin t l r, e' => by
    cases e' with
    | bin t' l' r' =>
      simp only [exprCmp]
      by_cases ht : t = t'
      · subst ht
        simp only [ne_eq, not_true_eq_false, if_false]
        have ih := cmp_swap h l l'
        have h1 := h r r'; have h2 := h r' r
        by_cases hz : icmp r r' = 0
        · have hz' : icmp r' r = 0 := h2.2.1.mpr (h1.2.1.mp hz).symm
          rw [if_neg (by simpa using hz), if_neg (by simpa using hz')]; exact ih
        · have hz' : icmp r' r ≠ 0 := fun h' => hz (h1.2.1.mpr (h2.2.1.mp h').symm)
          rw [if_pos hz, if_pos hz']
          constructor <;> constructor <;> intro <;> omega
      · rw [if_pos ht, if_pos (fun h' => ht h'.symm)]
        constructor <;> constructor <;> intro <;> omega
    | _ => rw [cmp_rank (by simp [Expr.rank]), cmp_rank (by simp [Expr.rank])]; simp [Expr.rank]
  | .red t l, e' => by
    cases e' with
    | red t' l' =>
      simp only [exprCmp]
      have ih := cmpList_swap h l l'
      by_cases h1 : l.length = 1 ∧ l'.length = 1
      · rw [if_pos h1, if_pos h1.symm]; exact ih
      · have h1' : ¬ (l'.length = 1 ∧ l.length = 1) := fun h' => h1 h'.symm
        simp only [if_neg h1, if_neg h1']
        by_cases ht : t = t'
        · subst ht
          simp only [ne_eq, not_true_eq_false, if_false]
          by_cases hl : l.length = l'.length
          · rw [if_neg (by simpa using hl), if_neg (by simpa using hl.symm)]; exact ih
          · rw [if_pos hl, if_pos (fun h' => hl h'.symm)]
            constructor <;> constructor <;> intro <;> omega
        · rw [if_pos ht, if_pos (fun h' => ht h'.symm)]
          constructor <;> constructor <;> intro <;> omega
    | _ => rw [cmp_rank (by simp [Expr.rank]), cmp_rank (by simp [Expr.rank])]; simp [Expr.rank]
theorem cmpList_swap {icmp : Int → Int → Int} (h : ICmpExact icmp) :
    ∀ (l l' : List Expr), (cmpList icmp l l' < 0 ↔ cmpList icmp l' l > 0) ∧
      (cmpList icmp l l' = 0 ↔ cmpList icmp l' l = 0)
  | [], l' => by cases l' <;> simp [cmpList]
  | e :: es, [] => by simp [cmpList]
  | e :: es, e' :: es' => by
    simp only [cmpList]
    have ih := cmp_swap h e e'
    by_cases hz : exprCmp icmp e e' = 0
    · have hz' := ih.2.mp hz
      rw [if_neg (by simpa using hz), if_neg (by simpa using hz')]; exact cmpList_swap h es es'
    · have hz' : exprCmp icmp e' e ≠ 0 := fun h' => hz (ih.2.mpr h')
      rw [if_pos hz, if_pos hz']; exact ih
end

theorem cmp_pos {icmp : Int → Int → Int} (h : ICmpExact icmp) (e e' : Expr) :
    exprCmp icmp e e' > 0 ↔ exprCmp icmp e' e < 0 := (cmp_swap h e' e).1.symm

/- If `exprCmp e e' = 0` on the class without distinct single-element reductions then the expressions
are the same. -/
mutual
theorem cmp_zero_eq {icmp : Int → Int → Int} (h : ICmpExact icmp) :
    ∀ (e e' : Expr), SumOnly e → SumOnly e' → exprCmp icmp e e' = 0 → e = e'
  | .name a, e', _, _, hc => by
    cases e' with
    | name b => simp only [exprCmp] at hc; rw [strcmp_zero.mp hc]
    | _ => simp [exprCmp, Expr.rank] at hc
  | .cst c, e', _, _, hc => by
    cases e' with
    | cst c' => simp only [exprCmp] at hc; rw [(h c c').2.1.mp hc]
    | _ => simp [exprCmp, Expr.rank] at hc
  | .term c v, e', hs, hs', hc => by
    cases e' with
    | term c' v' =>
      simp only [exprCmp] at hc
      simp only [SumOnly] at hs hs'
      by_cases hv : exprCmp icmp v v' = 0
      · rw [if_neg (by simpa using hv)] at hc
        rw [cmp_zero_eq h v v' hs hs' hv, (h c c').2.1.mp hc]
      · rw [if_pos hv] at hc; exact absurd hc hv
    | _ => simp [exprCmp, Expr.rank] at hc
  | .bin t l r, e', hs, hs', hc => by
    cases e' with
    | bin t' l' r' =>
      simp only [exprCmp] at hc
      simp only [SumOnly] at hs hs'
      by_cases ht : t = t'
      · subst ht
        rw [if_neg (by simp)] at hc
        by_cases hr : icmp r r' = 0
        · rw [if_neg (by simpa using hr)] at hc
          rw [cmp_zero_eq h l l' hs hs' hc, (h r r').2.1.mp hr]
        · rw [if_pos hr] at hc; exact absurd hc hr
      · rw [if_pos ht] at hc
        exfalso; apply ht
        cases t <;> cases t' <;> simp [BinType.rank] at hc ⊢
    | _ => simp [exprCmp, Expr.rank] at hc
  | .red t l, e', hs, hs', hc => by
    cases e' with
    | red t' l' =>
      simp only [exprCmp] at hc
      simp only [SumOnly] at hs hs'
      rw [hs.1, hs'.1] at hc ⊢
      by_cases h1 : l.length = 1 ∧ l'.length = 1
      · rw [if_pos h1] at hc
        rw [cmpList_zero_eq h l l' (by omega) hs.2 hs'.2 hc]
      · rw [if_neg h1, if_neg (by simp)] at hc
        by_cases hl : l.length = l'.length
        · rw [if_neg (by simpa using hl)] at hc
          rw [cmpList_zero_eq h l l' hl hs.2 hs'.2 hc]
        · rw [if_pos hl] at hc; omega
    | _ => simp [exprCmp, Expr.rank] at hc
theorem cmpList_zero_eq {icmp : Int → Int → Int} (h : ICmpExact icmp) :
    ∀ (l l' : List Expr), l.length = l'.length → SumOnlyList l → SumOnlyList l' →
      cmpList icmp l l' = 0 → l = l'
  | [], [], _, _, _, _ => rfl
  | e :: es, [], hl, _, _, _ => by simp at hl
  | [], e :: es, hl, _, _, _ => by simp at hl
  | e :: es, e' :: es', hl, hs, hs', hc => by
    simp only [cmpList] at hc
    simp only [SumOnlyList] at hs hs'
    by_cases hv : exprCmp icmp e e' = 0
    · rw [if_neg (by simpa using hv)] at hc
      rw [cmp_zero_eq h e e' hs.1 hs'.1 hv,
        cmpList_zero_eq h es es' (by simpa using hl) hs.2 hs'.2 hc]
    · rw [if_pos hv] at hc; exact absurd hc hv
end

mutual
theorem cmp_trans {icmp : Int → Int → Int} (h : ICmpExact icmp) :
    ∀ (a b d : Expr), SumOnly a → SumOnly b → SumOnly d →
      exprCmp icmp a b < 0 → exprCmp icmp b d < 0 → exprCmp icmp a d < 0
  | a, b, d, ha, hb, hd => by
    intro h1 h2
    have hr1 : a.rank ≤ b.rank := by
      by_contra hc
      rw [cmp_rank (by omega)] at h1; omega
    have hr2 : b.rank ≤ d.rank := by
      by_contra hc
      rw [cmp_rank (by omega)] at h2; omega
    by_cases hne : a.rank = d.rank
    · have hab : a.rank = b.rank := by omega
      match a, b, d, ha, hb, hd with
      | .name x, .name y, .name z, _, _, _ =>
        simp only [exprCmp] at *
        have h3 := strcmp_trans (le_of_lt h1) (le_of_lt h2)
        rcases lt_or_eq_of_le h3 with h4 | h4
        · exact h4
        · rw [strcmp_zero] at h4; subst h4
          have := (strcmp_swap x y).mp h1; omega
      | .cst x, .cst y, .cst z, _, _, _ =>
        simp only [exprCmp] at *
        have := h x y; have := h y z; have := h x z; omega
      | .cst x, .cst y, .term _ _, _, _, _ => simp [exprCmp]
      | .cst x, .term _ _, .cst z, _, _, _ => simp [exprCmp] at h2
      | .cst x, .term _ _, .term _ _, _, _, _ => simp [exprCmp]
      | .term _ _, .cst _, _, _, _, _ => simp [exprCmp] at h1
      | .term c v, .term c' v', .cst _, _, _, _ => simp [exprCmp] at h2
      | .term c v, .term c' v', .term c'' v'', ha, hb, hd =>
        simp only [SumOnly] at ha hb hd
        simp only [exprCmp] at *
        have i1 := h c c'; have i2 := h c' c''; have i3 := h c c''
        by_cases z1 : exprCmp icmp v v' = 0
        · rw [if_neg (by simpa using z1)] at h1
          have e1 := cmp_zero_eq h v v' ha hb z1
          subst e1
          by_cases z2 : exprCmp icmp v v'' = 0
          · rw [if_neg (by simpa using z2)] at h2 ⊢; omega
          · rw [if_pos z2] at h2 ⊢; exact h2
        · rw [if_pos z1] at h1
          by_cases z2 : exprCmp icmp v' v'' = 0
          · have e1 := cmp_zero_eq h v' v'' hb hd z2
            subst e1
            rw [if_pos z1]; exact h1
          · rw [if_pos z2] at h2
            have h3 := cmp_trans h v v' v'' ha hb hd h1 h2
            rw [if_pos (by omega)]; exact h3
      | .bin t l r, .bin t' l' r', .bin t'' l'' r'', ha, hb, hd =>
        simp only [SumOnly] at ha hb hd
        simp only [exprCmp] at *
        have i1 := h r r'; have i2 := h r' r''; have i3 := h r r''
        by_cases t1 : t = t'
        · subst t1
          rw [if_neg (by simp)] at h1
          by_cases t2 : t = t''
          · subst t2
            rw [if_neg (by simp)] at h2 ⊢
            by_cases z1 : icmp r r' = 0
            · rw [if_neg (by simpa using z1)] at h1
              have e1 := i1.2.1.mp z1
              subst e1
              by_cases z2 : icmp r r'' = 0
              · rw [if_neg (by simpa using z2)] at h2 ⊢
                exact cmp_trans h l l' l'' ha hb hd h1 h2
              · rw [if_pos z2] at h2 ⊢; exact h2
            · rw [if_pos z1] at h1
              by_cases z2 : icmp r' r'' = 0
              · have e1 := i2.2.1.mp z2
                subst e1
                rw [if_pos z1]; exact h1
              · rw [if_pos z2] at h2
                rw [if_pos (by omega)]; omega
          · rw [if_pos t2] at h2 ⊢; exact h2
        · rw [if_pos t1] at h1
          by_cases t2 : t' = t''
          · subst t2; rw [if_pos t1]; exact h1
          · rw [if_pos t2] at h2
            rw [if_pos (by intro h'; subst h'; omega)]; omega
      | .red t l, .red t' l', .red t'' l'', ha, hb, hd =>
        simp only [SumOnly] at ha hb hd
        obtain ⟨rfl, ha⟩ := ha
        obtain ⟨rfl, hb⟩ := hb
        obtain ⟨rfl, hd⟩ := hd
        have key : ∀ x y : List Expr, exprCmp icmp (.red .sum x) (.red .sum y) =
            if x.length ≠ y.length then (x.length : Int) - y.length else cmpList icmp x y := by
          intro x y
          simp only [exprCmp]
          by_cases hx : x.length = 1 ∧ y.length = 1
          · rw [if_pos hx, if_neg (by simp [hx.1, hx.2])]
          · rw [if_neg hx, if_neg (by simp)]
        rw [key] at h1 h2 ⊢
        by_cases l1 : l.length = l'.length
        · rw [if_neg (by simpa using l1)] at h1
          by_cases l2 : l'.length = l''.length
          · rw [if_neg (by simpa using l2)] at h2
            rw [if_neg (by simpa using l1.trans l2)]
            exact cmpList_trans h l l' l'' l1 l2 ha hb hd h1 h2
          · rw [if_pos l2] at h2
            rw [if_pos (by omega)]; omega
        · rw [if_pos l1] at h1
          by_cases l2 : l'.length = l''.length
          · rw [if_pos (by omega)]; omega
          · rw [if_pos l2] at h2
            rw [if_pos (by omega)]; omega
    · rw [cmp_rank hne]; omega
theorem cmpList_trans {icmp : Int → Int → Int} (h : ICmpExact icmp) :
    ∀ (a b d : List Expr), a.length = b.length → b.length = d.length →
      SumOnlyList a → SumOnlyList b → SumOnlyList d →
      cmpList icmp a b < 0 → cmpList icmp b d < 0 → cmpList icmp a d < 0
  | [], _, _, _, _, _, _, _ => by intro h1; simp [cmpList] at h1
  | x :: xs, [], _, hl, _, _, _, _ => by simp at hl
  | x :: xs, y :: ys, [], _, hl, _, _, _ => by simp at hl
  | x :: xs, y :: ys, z :: zs, l1, l2, ha, hb, hd => by
    intro h1 h2
    simp only [SumOnlyList] at ha hb hd
    simp only [cmpList] at *
    by_cases z1 : exprCmp icmp x y = 0
    · rw [if_neg (by simpa using z1)] at h1
      have e1 := cmp_zero_eq h x y ha.1 hb.1 z1
      subst e1
      by_cases z2 : exprCmp icmp x z = 0
      · rw [if_neg (by simpa using z2)] at h2 ⊢
        exact cmpList_trans h xs ys zs (by simpa using l1) (by simpa using l2) ha.2 hb.2 hd.2 h1 h2
      · rw [if_pos z2] at h2 ⊢; exact h2
    · rw [if_pos z1] at h1
      by_cases z2 : exprCmp icmp y z = 0
      · have e1 := cmp_zero_eq h y z hb.1 hd.1 z2
        subst e1
        rw [if_pos z1]; exact h1
      · rw [if_pos z2] at h2
        have h3 := cmp_trans h x y z ha.1 hb.1 hd.1 h1 h2
        rw [if_pos (by omega)]; exact h3
end

/-- C09, the part that holds: the comparison is a total preorder on expressions whose reductions are
all sums, which includes every list that `clast_minmax` sorts. Missing: expressions mixing
one-element sums, minima and maxima (as the right-hand sides sorted by `clast_guard_sort` may), where
it is false (`C09_not_transitive`). -/
theorem C09_preorder_partial {icmp : Int → Int → Int} (h : ICmpExact icmp) :
    IsPreorderOn (exprCmp icmp) SumOnly where
  refl := fun a _ => cmp_refl (fun x => (h x x).2.1.mpr rfl) a
  antisymm := fun a b _ _ => (cmp_swap h a b).1
  trans := fun a b d ha hb hd h1 h2 => by
    rcases lt_or_eq_of_le h1 with h1 | h1
    · rcases lt_or_eq_of_le h2 with h2 | h2
      · exact le_of_lt (cmp_trans h a b d ha hb hd h1 h2)
      · rw [cmp_zero_eq h b d hb hd h2] at h1; exact le_of_lt h1
    · rw [cmp_zero_eq h a b ha hb h1]; exact h2

example : SumOnly (.bin .cdiv (.red .sum [.term 3 (.name "i"), .cst 2]) 2) := by
  simp [SumOnly, SumOnlyList]

/-! ## The constant test of `insert_for` (part of C10) -/

theorem isBiggerR_eval (env : Env) (c : Int) : ∀ e', isBiggerR (.cst c) e' = true →
    c > e'.eval env
  | .name _ => by simp [isBiggerR, isBiggerCst]
  | .cst c' => by simp [isBiggerR, isBiggerCst, Expr.eval]
  | .term _ _ => by simp [isBiggerR, isBiggerCst]
  | .bin _ _ _ => by simp [isBiggerR, isBiggerCst]
  | .red t [] => by simp [isBiggerR]
  | .red t [x] => by
    intro h
    simp only [isBiggerR] at h
    have := isBiggerR_eval env c x h
    simpa [Expr.eval, evalList, redEval_single] using this
  | .red t (x :: y :: l) => by simp [isBiggerR]

theorem isBiggerR_cst {e : Expr} : ∀ e', isBiggerR e e' = true → ∃ c, e = .cst c
  | .name _ => by cases e <;> simp [isBiggerR, isBiggerCst]
  | .cst c' => by cases e <;> simp [isBiggerR, isBiggerCst]
  | .term _ _ => by cases e <;> simp [isBiggerR, isBiggerCst]
  | .bin _ _ _ => by cases e <;> simp [isBiggerR, isBiggerCst]
  | .red t [] => by simp [isBiggerR]
  | .red t [x] => by
    intro h
    simp only [isBiggerR] at h
    exact isBiggerR_cst x h
  | .red t (x :: y :: l) => by simp [isBiggerR]

theorem isBiggerL_eval (env : Env) : ∀ (e e' : Expr), isBiggerL e e' = true →
    e.eval env > e'.eval env
  | .name a, e', h => by
    obtain ⟨c, hc⟩ := isBiggerR_cst e' (by simpa [isBiggerL] using h); cases hc
  | .cst c, e', h => isBiggerR_eval env c e' (by simpa [isBiggerL] using h)
  | .term _ _, e', h => by
    obtain ⟨c, hc⟩ := isBiggerR_cst e' (by simpa [isBiggerL] using h); cases hc
  | .bin _ _ _, e', h => by
    obtain ⟨c, hc⟩ := isBiggerR_cst e' (by simpa [isBiggerL] using h); cases hc
  | .red t [], e', h => by simp [isBiggerL] at h
  | .red t [x], e', h => by
    have := isBiggerL_eval env x e' (by simpa [isBiggerL] using h)
    simpa [Expr.eval, evalList, redEval_single] using this
  | .red t (x :: y :: l), e', h => by simp [isBiggerL] at h

/-- C10, first half: when `clast_expr_is_bigger_constant` lets `insert_for` drop a loop, the lower
bound is above the upper bound in every environment, so the loop would not execute. -/
theorem C10_dropped_loop_empty (e1 e2 : Option Expr) (h : isBiggerConstant e1 e2 = true) :
    ∃ l u, e1 = some l ∧ e2 = some u ∧ ∀ (env : Env) (v : Int), ¬ (l.eval env ≤ v ∧ v ≤ u.eval env) := by
  match e1, e2, h with
  | some l, some u, h =>
    refine ⟨l, u, rfl, rfl, fun env v hv => ?_⟩
    have := isBiggerL_eval env l u h
    omega

example : isBiggerConstant (some (.red .max [.cst 3])) (some (.red .min [.cst 2])) = true := by decide

/-- C10, second half: when the bounds are reported equal, the loop executes exactly once, for the
value of the lower bound expression. -/
theorem C10_collapsed_loop_once {icmp : Int → Int → Int} (h : ICmpExact icmp) (l u : Expr)
    (heq : exprEqual icmp (some l) (some u) = true) (env : Env) (v : Int) :
    (l.eval env ≤ v ∧ v ≤ u.eval env) ↔ v = l.eval env := by
  rw [C08_equal_sound h l u heq env]; omega

end Verif.Props.Expr
